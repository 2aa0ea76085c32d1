import Verif.Lemmas.ConditionalSystematic

/-!
# Properties: the law of the resampled indices (C47, C50)

Expectations are over a fresh ideal key (`Spec/Random.lean`; such keys exist, see
`exists_ideal_prefix` and `exists_ideal_indep` in `Lemmas/Random.lean`).
-/

namespace Cuthbert.Resampling
open MeasureTheory Set
open scoped ENNReal

noncomputable section

variable {K X : Type*} [MeasurableSpace K] {N n : ℕ} [NeZero N]

/-! ## C47 -/

/-- A resampling function, as a function of the key, is unbiased for the log-weights `l`: it returns
`n` equally weighted copies of particles, and the expected number of copies of particle `i` is
`n w_i`. -/
def Unbiased (P : Measure K) (l : Fin N → Fl) (pos : Fin N → X)
    (res : K → Except Err (Resampled N n X)) : Prop :=
  ∃ R : K → Resampled N n X, (∀ k, res k = .ok (R k)) ∧
    (∀ k m, (R k).logits m = 0 ∧ (R k).positions m = pos ((R k).idx m)) ∧
    (∀ m i, MeasurableSet {k | (R k).idx m = i}) ∧
    ∀ i, ∫⁻ k, (copies (R k) i : ℝ≥0∞) ∂P = n * ENNReal.ofReal (nw l i)

omit [NeZero N] in
theorem lintegral_copies {P : Measure K} {R : K → Resampled N n X}
    (hR : ∀ m i, MeasurableSet {k | (R k).idx m = i}) (i : Fin N) :
    ∫⁻ k, (copies (R k) i : ℝ≥0∞) ∂P = ∑ m, P {k | (R k).idx m = i} := by
  have h1 : ∀ k, (copies (R k) i : ℝ≥0∞) = ∑ m, {k | (R k).idx m = i}.indicator 1 k := by
    intro k
    rw [copies, Finset.card_filter]
    push_cast
    refine Finset.sum_congr rfl fun m _ => ?_
    simp [indicator_apply]
  simp only [h1]
  rw [lintegral_finsetSum' _ fun m _ => (measurable_one.indicator (hR m i)).aemeasurable]
  simp only [lintegral_indicator_one (hR _ i)]

omit [NeZero N] in
/-- What unbiasedness is for: the average of any function over the resampled particles has the
weighted average as its expectation. -/
theorem Unbiased.average {P : Measure K} {l : Fin N → Fl} {pos : Fin N → X}
    {res : K → Except Err (Resampled N n X)} (h : Unbiased P l pos res) (f : X → ℝ≥0∞) :
    ∃ R : K → Resampled N n X, (∀ k, res k = .ok (R k)) ∧
      ∫⁻ k, ∑ m, f ((R k).positions m) ∂P = n * ∑ i, ENNReal.ofReal (nw l i) * f (pos i) := by
  obtain ⟨R, h1, h2, h3, h4⟩ := h
  refine ⟨R, h1, ?_⟩
  have h5 : ∀ k, ∑ m, f ((R k).positions m) =
      ∑ i, ∑ m, {k | (R k).idx m = i}.indicator (fun _ => f (pos i)) k := by
    intro k
    rw [Finset.sum_comm]
    refine Finset.sum_congr rfl fun m _ => ?_
    rw [(h2 k m).2, Finset.sum_eq_single ((R k).idx m)]
    · simp
    · intro i _ hi
      have hk : k ∉ {k | (R k).idx m = i} := fun h => hi (h : (R k).idx m = i).symm
      rw [indicator_of_notMem hk]
    · simp
  have hm : ∀ i m, Measurable ({k | (R k).idx m = i}.indicator fun _ => f (pos i)) :=
    fun i m => measurable_const.indicator (h3 m i)
  simp only [h5]
  have hm' : ∀ i, Measurable fun k => ∑ m, {k | (R k).idx m = i}.indicator (fun _ => f (pos i)) k :=
    fun i => Finset.measurable_sum _ fun m _ => hm i m
  rw [lintegral_finsetSum' _ fun i _ => (hm' i).aemeasurable, Finset.mul_sum]
  refine Finset.sum_congr rfl fun i _ => ?_
  rw [lintegral_finsetSum' _ fun m _ => (hm i m).aemeasurable]
  simp only [lintegral_indicator_const (h3 _ i)]
  rw [← Finset.mul_sum, ← lintegral_copies h3, h4, mul_comm, mul_assoc]

section

variable {rng : Rng K} {P : Measure K} (h : IdealRng rng P)

include h

/-- C47: multinomial resampling is unbiased. -/
theorem multinomial_unbiased (pf : Platform) {l : Fin N → Fl} (hl : IsLogits l) (pos : Fin N → X)
    (n : ℕ) : Unbiased P l pos fun k => multinomial rng pf k l pos n := by
  have hm : ∀ (m : Fin n) (i : Fin N), MeasurableSet {k | multinomialIdx rng pf l n k m = i} :=
    fun m i => ((measurable_pi_apply m).comp ((measurable_multinomialIdx h pf).comp
      (measurable_id.prodMk (measurable_const (a := l))))) (measurableSet_singleton i)
  refine ⟨_, fun k => multinomial_eq rng pf k l pos n, fun k m => ⟨rfl, rfl⟩, hm, fun i => ?_⟩
  rw [lintegral_copies hm]
  have h1 : ∀ m : Fin n, P {k | multinomialIdx rng pf l n k m = i} = ENNReal.ofReal (nw l i) := by
    intro m
    have h2 := multinomialIdx_slot h pf hl m (({i} : Set (Fin N)).indicator 1)
    rw [← lintegral_indicator_one (hm m i)]
    simpa [indicator_apply] using h2
  simp [h1]

/-- C47: systematic resampling is unbiased. -/
theorem systematic_unbiased (pf : Platform) {l : Fin N → Fl} (hl : IsLogits l) (pos : Fin N → X)
    (n : ℕ) : Unbiased P l pos fun k => systematic rng pf k l pos n := by
  have hm : ∀ (m : Fin n) (i : Fin N), MeasurableSet {k | systematicIdx rng pf l n k m = i} :=
    fun m i => ((measurable_pi_apply m).comp ((measurable_systematicIdx h pf).comp
      (measurable_id.prodMk (measurable_const (a := l))))) (measurableSet_singleton i)
  refine ⟨_, fun k => systematic_eq rng pf k l pos n, fun k m => ⟨rfl, rfl⟩, hm, fun i => ?_⟩
  rw [lintegral_copies hm]
  exact systematicIdx_mean h pf hl i

/-- C47: killing resampling is unbiased. -/
theorem killing_unbiased (pf : Platform) {l : Fin N → Fl} (hl : IsLogits l) (pos : Fin N → X) :
    Unbiased P l pos fun k => killing rng pf k l pos N := by
  have hm : ∀ m i : Fin N, MeasurableSet {k | killingIdx rng pf l k m = i} :=
    fun m i => ((measurable_pi_apply m).comp ((measurable_killingIdx h pf).comp
      (measurable_id.prodMk (measurable_const (a := l))))) (measurableSet_singleton i)
  refine ⟨_, fun k => killing_eq rng pf k l pos, fun k m => ⟨rfl, rfl⟩, hm, fun i => ?_⟩
  rw [lintegral_copies hm]
  have h1 : ∀ m, P {k | killingIdx rng pf l k m = i} = ENNReal.ofReal (killingSlot l m i) := by
    intro m
    have h2 := killingIdx_slot h pf hl m (({i} : Set (Fin N)).indicator 1)
    rw [← lintegral_indicator_one (hm m i)]
    simpa [indicator_apply] using h2
  simp only [h1]
  rw [← ENNReal.ofReal_sum_of_nonneg fun m _ => killingSlot_nonneg hl m i, sum_killingSlot hl,
    ENNReal.ofReal_mul (by positivity), ENNReal.ofReal_natCast]

/-- C47: the indices of multinomial resampling are independent draws from the weights. -/
theorem multinomial_iid (pf : Platform) {l : Fin N → Fl} (hl : IsLogits l) (pos : Fin N → X)
    (n : ℕ) : ∃ R : K → Resampled N n X, (∀ k, multinomial rng pf k l pos n = .ok (R k)) ∧
      ∀ a, P {k | (R k).idx = a} = ∏ m, ENNReal.ofReal (nw l (a m)) := by
  have hm : ∀ a, MeasurableSet {k | multinomialIdx rng pf l n k = a} := fun a =>
    ((measurable_multinomialIdx h pf).comp (measurable_id.prodMk (measurable_const (a := l))))
      (measurableSet_singleton a)
  refine ⟨_, fun k => multinomial_eq rng pf k l pos n, fun a => ?_⟩
  have h2 := multinomialIdx_law h pf hl (({a} : Set (Fin n → Fin N)).indicator 1)
  simp only
  rw [← lintegral_indicator_one (hm a)]
  simpa [indicator_apply] using h2

/-! ## C50 -/

omit h [MeasurableSpace K] [NeZero N] in
theorem sum_prod_indicator (q : Fin n → Fin N → ℝ≥0∞) (A : Fin n → Fin N → Prop)
    [∀ m b, Decidable (A m b)] :
    ∑ b : Fin n → Fin N, (∏ m, q m (b m)) * (if ∀ m, A m (b m) then 1 else 0) =
      ∏ m, ∑ b, q m b * if A m b then 1 else 0 := by
  rw [Finset.prod_univ_sum, Fintype.piFinset_univ]
  refine Finset.sum_congr rfl fun b _ => ?_
  rw [Finset.prod_mul_distrib, Finset.prod_ite_zero]
  simp

/-- C50: conditional multinomial resampling has the law of multinomial resampling given that slot
`pivot_in` holds particle `pivot_out`, an event of probability `w_{pivot_out}`. -/
theorem multinomial_conditional_law (pf : Platform) {l : Fin N → Fl} (hl : IsLogits l)
    (pos : Fin N → X) (n : ℕ) (pivotIn : Fin n) (pivotOut : Fin N) :
    ∃ R C : K → Resampled N n X, (∀ k, multinomial rng pf k l pos n = .ok (R k)) ∧
      (∀ k, multinomialConditional rng pf k l pos n pivotIn pivotOut = .ok (C k)) ∧
      P {k | (R k).idx pivotIn = pivotOut} = ENNReal.ofReal (nw l pivotOut) ∧
      ∀ a, P {k | (C k).idx = a} * P {k | (R k).idx pivotIn = pivotOut} =
        P {k | (R k).idx = a ∧ (R k).idx pivotIn = pivotOut} := by
  classical
  have hmeas : Measurable fun k => multinomialIdx rng pf l n k :=
    Measurable.comp (g := fun p : K × (Fin N → Fl) => multinomialIdx rng pf p.2 n p.1)
      (f := fun k => (k, l)) (measurable_multinomialIdx h pf)
      (measurable_id.prodMk (measurable_const (a := l)))
  have hP : ∀ (A : (Fin n → Fin N) → Prop), P {k | A (multinomialIdx rng pf l n k)} =
      ∑ b : Fin n → Fin N, (∏ m, ENNReal.ofReal (nw l (b m))) * if A b then 1 else 0 := by
    intro A
    have h2 := multinomialIdx_law h pf hl ({b | A b}.indicator 1)
    have hset : MeasurableSet {k | A (multinomialIdx rng pf l n k)} :=
      hmeas (Set.toFinite {b | A b}).measurableSet
    rw [← lintegral_indicator_one hset]
    simpa [indicator_apply] using h2
  have hslot : P {k | multinomialIdx rng pf l n k pivotIn = pivotOut} =
      ENNReal.ofReal (nw l pivotOut) := by
    have h2 := multinomialIdx_slot h pf hl pivotIn (({pivotOut} : Set (Fin N)).indicator 1)
    have hset : MeasurableSet {k | multinomialIdx rng pf l n k pivotIn = pivotOut} :=
      ((measurable_pi_apply pivotIn).comp hmeas) (measurableSet_singleton pivotOut)
    rw [← lintegral_indicator_one hset]
    simpa [indicator_apply] using h2
  refine ⟨_, _, fun k => multinomial_eq rng pf k l pos n, fun k => rfl, hslot, fun a => ?_⟩
  simp only
  rw [hslot]
  have h1 : P {k | Function.update (multinomialIdx rng pf l n k) pivotIn pivotOut = a} =
      ∏ m, if m = pivotIn then (if pivotOut = a m then 1 else 0) else ENNReal.ofReal (nw l (a m)) := by
    rw [hP fun b => Function.update b pivotIn pivotOut = a]
    have hiff : ∀ b : Fin n → Fin N, Function.update b pivotIn pivotOut = a ↔
        ∀ m, if m = pivotIn then pivotOut = a m else b m = a m := by
      intro b
      rw [funext_iff]
      refine forall_congr' fun m => ?_
      by_cases hm : m = pivotIn
      · subst hm; simp
      · simp [hm]
    simp only [hiff]
    rw [sum_prod_indicator (fun _ b => ENNReal.ofReal (nw l b))
      (fun m b => if m = pivotIn then pivotOut = a m else b = a m)]
    refine Finset.prod_congr rfl fun m _ => ?_
    by_cases hm : m = pivotIn
    · simp only [if_pos hm]
      rw [← Finset.sum_mul, ← ENNReal.ofReal_sum_of_nonneg fun i _ => nw_nonneg l i, nw_sum hl,
        ENNReal.ofReal_one, one_mul]
    · simp [hm]
  have h2 : P {k | multinomialIdx rng pf l n k = a ∧
      multinomialIdx rng pf l n k pivotIn = pivotOut} =
      ∏ m, (ENNReal.ofReal (nw l (a m)) * if m = pivotIn then (if pivotOut = a m then 1 else 0)
        else 1) := by
    rw [hP fun b => b = a ∧ b pivotIn = pivotOut, Finset.prod_mul_distrib, Finset.prod_ite_eq' ]
    rw [Finset.sum_eq_single a]
    · simp [eq_comm]
    · intro b _ hb; simp [hb]
    · simp
  change P {k | Function.update (multinomialIdx rng pf l n k) pivotIn pivotOut = a} * _ = _
  rw [h1, h2, ← Finset.mul_prod_erase _ _ (Finset.mem_univ pivotIn),
    ← Finset.mul_prod_erase _ (fun m => ENNReal.ofReal (nw l (a m)) * _) (Finset.mem_univ pivotIn)]
  simp only [if_true]
  have h3 : ∏ m ∈ Finset.univ.erase pivotIn, (if m = pivotIn then
      (if pivotOut = a m then 1 else 0) else ENNReal.ofReal (nw l (a m))) =
      ∏ m ∈ Finset.univ.erase pivotIn, (ENNReal.ofReal (nw l (a m)) * if m = pivotIn then
        (if pivotOut = a m then 1 else 0) else 1) :=
    Finset.prod_congr rfl fun m hm => by
      rw [if_neg (Finset.ne_of_mem_erase hm), if_neg (Finset.ne_of_mem_erase hm), mul_one]
  rw [h3]
  by_cases hp : pivotOut = a pivotIn
  · rw [if_pos hp, ← hp]
    ring
  · rw [if_neg hp]
    ring

omit h [NeZero N] in
/-- After the shift every slot is alike, so each slot holds particle `i` with probability `w_i`
whenever the indices are unbiased. -/
theorem shiftedLaw_slot [NeZero n] (idx : K → Fin n → Fin N) (m : Fin n) (i : Fin N) :
    shiftedLaw P idx {a | a m = i} = (n : ℝ≥0∞)⁻¹ * ∑ m, P {k | idx k m = i} := by
  rw [shiftedLaw]
  congr 1
  exact Equiv.sum_comp (Equiv.subLeft m) fun j => P {k | idx k j = i}

/-- C50: conditional killing resampling has the law of killing resampling followed by a uniform
random cyclic shift of the slots, given that slot `pivot_in` then holds particle `pivot_out`, an
event of probability `w_{pivot_out}`. -/
theorem killing_conditional_law (pf : Platform) {l : Fin N → Fl} (hl : IsLogits l)
    (pos : Fin N → X) (pivotIn pivotOut : Fin N) (hw : 0 < nw l pivotOut) :
    ∃ R C : K → Resampled N N X, (∀ k, killing rng pf k l pos N = .ok (R k)) ∧
      (∀ k, killingConditional rng pf k l pos N pivotIn pivotOut = .ok (C k)) ∧
      shiftedLaw P (fun k => (R k).idx) {a | a pivotIn = pivotOut} =
        ENNReal.ofReal (nw l pivotOut) ∧
      ∀ a, P {k | (C k).idx = a} * shiftedLaw P (fun k => (R k).idx) {a | a pivotIn = pivotOut} =
        shiftedLaw P (fun k => (R k).idx) {b | b = a ∧ b pivotIn = pivotOut} := by
  classical
  have hN : (0 : ℝ) < N := by exact_mod_cast NeZero.pos N
  have hN0 : (N : ℝ≥0∞) ≠ 0 := by exact_mod_cast NeZero.ne N
  have hmeas : Measurable fun k => killingIdx rng pf l k :=
    Measurable.comp (g := fun p : K × (Fin N → Fl) => killingIdx rng pf p.2 p.1)
      (f := fun k => (k, l)) (measurable_killingIdx h pf)
      (measurable_id.prodMk (measurable_const (a := l)))
  have hslot : shiftedLaw P (fun k => killingIdx rng pf l k) {a | a pivotIn = pivotOut} =
      ENNReal.ofReal (nw l pivotOut) := by
    have h1 : ∀ m, P {k | killingIdx rng pf l k m = pivotOut} =
        ENNReal.ofReal (killingSlot l m pivotOut) := by
      intro m
      have h2 := killingIdx_slot h pf hl m (({pivotOut} : Set (Fin N)).indicator 1)
      have hset : MeasurableSet {k | killingIdx rng pf l k m = pivotOut} :=
        ((measurable_pi_apply m).comp hmeas) (measurableSet_singleton pivotOut)
      rw [← lintegral_indicator_one hset]
      simpa [indicator_apply] using h2
    rw [shiftedLaw_slot]
    simp only [h1]
    rw [← ENNReal.ofReal_sum_of_nonneg fun m _ => killingSlot_nonneg hl m _, sum_killingSlot hl,
      ENNReal.ofReal_mul hN.le, ENNReal.ofReal_natCast, ← mul_assoc,
      ENNReal.inv_mul_cancel hN0 (ENNReal.natCast_ne_top N), one_mul]
  obtain ⟨J, hJ⟩ : ∃ J : K → Fin N, J = fun k => rng.choice k N (pivotWeights l N pivotOut) :=
    ⟨_, rfl⟩
  obtain ⟨C, hC⟩ : ∃ C : Fin N → (Fin N → Fin N) → (Fin N → Fin N), C = fun p b =>
    Function.update (fun j => b (j - (pivotIn - p))) pivotIn pivotOut := ⟨_, rfl⟩
  refine ⟨_, fun k => ⟨C (J (rng.nth k 2 1)) (killingIdx rng pf l (rng.nth k 2 0)), fun _ => 0,
      fun j => pos (C (J (rng.nth k 2 1)) (killingIdx rng pf l (rng.nth k 2 0)) j)⟩,
    fun k => killing_eq rng pf k l pos, fun k => ?_, hslot, fun a => ?_⟩
  · rw [killingConditional, killing_eq]
    have hroll : roll (killingIdx rng pf l (rng.nth k 2 0))
        ((pivotIn : ℕ) - (((J (rng.nth k 2 1) : Fin N) : ℕ) : ℤ)) =
        fun j => killingIdx rng pf l (rng.nth k 2 0) (j - (pivotIn - J (rng.nth k 2 1))) :=
      funext fun j => roll_sub _ _ _ _ rfl j
    simp only [hJ] at hroll
    simp only [hC, hJ, ← hroll]
    rfl
  simp only
  rw [hslot]
  -- the law of the slot of the pivot
  obtain ⟨p, hp⟩ : ∃ p : Fin N → ℝ, p = fun j => killingSlot l j pivotOut / (N * nw l pivotOut) :=
    ⟨_, rfl⟩
  have hp0 : ∀ j, 0 ≤ p j := fun j => by
    rw [hp]; exact div_nonneg (killingSlot_nonneg hl j _) (mul_pos hN hw).le
  have hpsum : ∑ j, p j = 1 := by
    rw [hp, ← Finset.sum_div, sum_killingSlot hl, div_self (mul_pos hN hw).ne']
  have hJm : Measurable J := by
    rw [hJ]
    exact Measurable.comp (g := fun q : K × (Fin N → Fl) => rng.choice q.1 N q.2)
      (f := fun k => (k, pivotWeights l N pivotOut)) (h.choice_measurable N)
      (measurable_id.prodMk measurable_const)
  have hJlaw : ∀ j, P {k | J k = j} = ENNReal.ofReal (p j) := by
    intro j
    rw [hJ, ← h.choice N p hp0 hpsum j]
    have : pivotWeights l N pivotOut = fun j => Fl.fin (p j) := by
      funext j; rw [pivotWeights_eq hl hw, hp]
    rw [this]
  have hP : ∀ A : (Fin N → Fin N) → Prop, P {k | A (killingIdx rng pf l k)} =
      ∑ b : Fin N → Fin N, (∏ m, ENNReal.ofReal (killingSlot l m (b m))) * if A b then 1 else 0 := by
    intro A
    have h2 := killingIdx_law h pf hl ({b | A b}.indicator 1)
    have hset : MeasurableSet {k | A (killingIdx rng pf l k)} :=
      hmeas (Set.toFinite {b | A b}).measurableSet
    rw [← lintegral_indicator_one hset]
    simpa [indicator_apply] using h2
  have hset : MeasurableSet {k | C (J (rng.nth k 2 1)) (killingIdx rng pf l (rng.nth k 2 0)) = a} :=
    by
    have h1 : Measurable fun q : Fin N × (Fin N → Fin N) => C q.1 q.2 := measurable_of_finite _
    have h2 : Measurable fun k => (J (rng.nth k 2 1), killingIdx rng pf l (rng.nth k 2 0)) :=
      (hJm.comp (h.measurable_nth 2 1)).prodMk (hmeas.comp (h.measurable_nth 2 0))
    exact (h1.comp h2) (measurableSet_singleton a)
  have h1 : P {k | C (J (rng.nth k 2 1)) (killingIdx rng pf l (rng.nth k 2 0)) = a} =
      ∑ j, ENNReal.ofReal (p j) * P {k | C j (killingIdx rng pf l k) = a} := by
    obtain ⟨F, hF⟩ : ∃ F : K × K → ℝ≥0∞, F = fun q =>
      if C (J q.2) (killingIdx rng pf l q.1) = a then 1 else 0 := ⟨_, rfl⟩
    have hFm : Measurable F := by
      rw [hF]
      have h1 : Measurable fun q : Fin N × (Fin N → Fin N) =>
        if C q.1 q.2 = a then (1 : ℝ≥0∞) else 0 := measurable_of_finite _
      have h2 : Measurable fun q : K × K => (J q.2, killingIdx rng pf l q.1) :=
        (hJm.comp measurable_snd).prodMk (hmeas.comp measurable_fst)
      exact h1.comp h2
    have := h.prob
    rw [← lintegral_indicator_one hset]
    have h3 : ∀ k, {k | C (J (rng.nth k 2 1)) (killingIdx rng pf l (rng.nth k 2 0)) = a}.indicator
        (1 : K → ℝ≥0∞) k = F (rng.nth k 2 0, rng.nth k 2 1) := by
      intro k; rw [hF]; simp [indicator_apply]
    simp only [h3]
    rw [h.lintegral_split_two hFm, lintegral_lintegral_swap (f := fun x y => F (x, y)) hFm.aemeasurable]
    have h4 : ∀ y, ∫⁻ x, F (x, y) ∂P = P {k | C (J y) (killingIdx rng pf l k) = a} := by
      intro y
      have hs : MeasurableSet {k | C (J y) (killingIdx rng pf l k) = a} :=
        hmeas (Set.toFinite {b | C (J y) b = a}).measurableSet
      rw [← lintegral_indicator_one hs, hF]
      refine lintegral_congr fun x => ?_
      simp [indicator_apply]
    simp only [h4]
    rw [lintegral_finite (f := J) (fun j => hJm (measurableSet_singleton j))
      fun j => P {k | C j (killingIdx rng pf l k) = a}]
    simp only [hJlaw]
  rw [h1, Finset.sum_mul, shiftedLaw, ← Equiv.sum_comp (Equiv.subLeft pivotIn) fun s =>
    P {k | (fun j => killingIdx rng pf l k (j - s)) ∈ {b | b = a ∧ b pivotIn = pivotOut}},
    Finset.mul_sum]
  refine Finset.sum_congr rfl fun j _ => ?_
  simp only [Equiv.subLeft_apply]
  -- both laws as products over the slots
  by_cases hpa : a pivotIn = pivotOut
  swap
  · have e1 : {k | C j (killingIdx rng pf l k) = a} = ∅ := by
      ext k
      simp only [mem_ofPred_eq, mem_empty_iff_false, iff_false]
      intro hk
      apply hpa
      rw [← hk, hC]
      simp
    have e2 : {k | (fun i => killingIdx rng pf l k (i - (pivotIn - j))) ∈
        {b : Fin N → Fin N | b = a ∧ b pivotIn = pivotOut}} = ∅ := by
      ext k
      simp only [mem_ofPred_eq, mem_empty_iff_false, iff_false]
      rintro ⟨hk, hk'⟩
      exact hpa (by rw [← hk]; exact hk')
    rw [e1, e2]
    simp
  have e1 : P {k | C j (killingIdx rng pf l k) = a} =
      ∏ m, if m = j then 1 else ENNReal.ofReal (killingSlot l m (a (m + (pivotIn - j)))) := by
    rw [hP fun b => C j b = a]
    have hiff : ∀ b : Fin N → Fin N, C j b = a ↔
        ∀ m, m = j ∨ b m = a (m + (pivotIn - j)) := by
      intro b
      rw [funext_iff, hC, ← (Equiv.addRight (pivotIn - j)).forall_congr_right]
      refine forall_congr' fun m => ?_
      simp only [Equiv.coe_addRight, Function.update_apply, add_sub_cancel_right]
      by_cases hm : m = j
      · simp [hm, hpa]
      · have : m + (pivotIn - j) ≠ pivotIn := fun h => hm (by
          have := congrArg (· - (pivotIn - j)) h
          simpa using this)
        simp [hm, this]
    simp only [hiff]
    rw [sum_prod_indicator (fun m b => ENNReal.ofReal (killingSlot l m b))
      (fun m b => m = j ∨ b = a (m + (pivotIn - j)))]
    refine Finset.prod_congr rfl fun m _ => ?_
    by_cases hm : m = j
    · simp only [hm, true_or, if_true, mul_one]
      rw [← ENNReal.ofReal_sum_of_nonneg fun b _ => killingSlot_nonneg hl j b, killingSlot_sum hl,
        ENNReal.ofReal_one]
    · simp [hm]
  have e2 : P {k | (fun i => killingIdx rng pf l k (i - (pivotIn - j))) ∈
      {b : Fin N → Fin N | b = a ∧ b pivotIn = pivotOut}} =
      ∏ m, ENNReal.ofReal (killingSlot l m (a (m + (pivotIn - j)))) := by
    rw [← killingIdx_prob h pf hl fun m => a (m + (pivotIn - j))]
    congr 1
    ext k
    simp only [mem_ofPred_eq]
    constructor
    · rintro ⟨hk, -⟩
      funext m
      have := congrFun hk (m + (pivotIn - j))
      simpa using this
    · intro hk
      have h5 : (fun i => killingIdx rng pf l k (i - (pivotIn - j))) = a := by
        funext i
        rw [hk]
        simp
      exact ⟨h5, by rw [← hpa]; exact congrFun h5 pivotIn⟩
  rw [e1, e2, ← Finset.mul_prod_erase _ _ (Finset.mem_univ j),
    ← Finset.mul_prod_erase _ (fun m => ENNReal.ofReal _) (Finset.mem_univ j)]
  have h6 : j + (pivotIn - j) = pivotIn := by simp
  rw [h6, hpa, if_pos rfl, one_mul,
    Finset.prod_congr rfl fun m hm => if_neg (Finset.ne_of_mem_erase hm)]
  have h7 : ENNReal.ofReal (p j) * ENNReal.ofReal (nw l pivotOut) =
      (N : ℝ≥0∞)⁻¹ * ENNReal.ofReal (killingSlot l j pivotOut) := by
    rw [← ENNReal.ofReal_mul (hp0 j), hp, ← ENNReal.ofReal_natCast N, ← ENNReal.ofReal_inv_of_pos hN,
      ← ENNReal.ofReal_mul (by positivity)]
    congr 1
    field_simp
  rw [mul_right_comm, h7, mul_assoc]

/-- Systematic resampling followed by a uniform random cyclic shift of the slots: a uniformly
random point of a circle of length `n`, and its translates by `0, 1, ..., n - 1`. -/
theorem shiftedLaw_systematic (pf : Platform) {l : Fin N → Fl} (hl : IsLogits l) [NeZero n]
    (A : Set (Fin n → Fin N)) :
    shiftedLaw P (systematicIdx rng pf l n) A =
      (n : ℝ≥0∞)⁻¹ * ∫⁻ t in Ico (0 : ℝ) n, A.indicator 1 fun j : Fin n =>
        arc pf l ((t + (j : ℕ)) / n) := by
  classical
  have hn := NeZero.pos n
  have hn' : (0 : ℝ) < n := by exact_mod_cast hn
  rw [shiftedLaw, ← sum_lintegral_unif, ← Equiv.sum_comp (Equiv.neg (Fin n))]
  congr 1
  refine Finset.sum_congr rfl fun s _ => ?_
  have hmeas : Measurable fun u : ℝ => inverseCdf pf (systematicUniforms u n) l := by
    have h1 : Measurable fun u : ℝ => (systematicUniforms u n, l) :=
      measurable_systematicUniforms.prodMk measurable_const
    exact (measurable_inverseCdf pf).comp h1
  have hset : MeasurableSet {u | (fun j => inverseCdf pf (systematicUniforms u n) l
      (j - (-s : Fin n))) ∈ A} :=
    hmeas (Set.toFinite {b : Fin n → Fin N | (fun j => b (j - (-s : Fin n))) ∈ A}).measurableSet
  have h2 : P {k | (fun j => systematicIdx rng pf l n k (j - Equiv.neg (Fin n) s)) ∈ A} =
      unif {u | (fun j => inverseCdf pf (systematicUniforms u n) l (j - (-s : Fin n))) ∈ A} := by
    rw [← h.uniform0.measure_preimage hset.nullMeasurableSet]
    rfl
  rw [h2, ← lintegral_indicator_one hset]
  refine lintegral_congr_ae (unif_ae.mono fun u hu => ?_)
  simp only [indicator_apply, mem_ofPred_eq, Pi.one_apply]
  refine if_congr ?_ rfl rfl
  have h3 : (fun j : Fin n => inverseCdf pf (systematicUniforms u n) l (j - (-s : Fin n))) =
      fun j : Fin n => arc pf l ((u + (s : ℕ) + (j : ℕ)) / n) := by
    funext j
    rw [inverseCdf_arc pf hl hu.1 hu.2]
    have hmod : (((j - (-s) : Fin n) : ℕ) : ℤ) ≡ (s : ℕ) + (j : ℕ) [ZMOD n] := by
      refine (sub_modEq j (-s)).trans ?_
      have h4 := sub_modEq (0 : Fin n) s
      rw [zero_sub] at h4
      have h5 := (Int.ModEq.refl ((j : ℕ) : ℤ)).sub h4
      refine h5.trans ?_
      simp [add_comm]
    have h6 := arc_congr pf l hn 0 u hmod
    rw [zero_add, zero_add] at h6
    push_cast at h6
    rw [h6, add_assoc]
  rw [h3]

/-- C50: conditional systematic resampling has the law of systematic resampling followed by a
uniform random cyclic shift of the slots, given that slot `pivot_in` then holds particle
`pivot_out`, an event of probability `w_{pivot_out}`. -/
theorem systematic_conditional_law (pf : Platform) {l : Fin N → Fl} (hl : IsLogits l)
    (pos : Fin N → X) (n : ℕ) [NeZero n] (pivotIn : Fin n) (pivotOut : Fin N)
    (hw : 0 < nw l pivotOut) :
    ∃ R C : K → Resampled N n X, (∀ k, systematic rng pf k l pos n = .ok (R k)) ∧
      (∀ k, systematicConditional rng pf k l pos n pivotIn pivotOut = .ok (C k)) ∧
      shiftedLaw P (fun k => (R k).idx) {a | a pivotIn = pivotOut} =
        ENNReal.ofReal (nw l pivotOut) ∧
      ∀ a, P {k | (C k).idx = a} * shiftedLaw P (fun k => (R k).idx) {a | a pivotIn = pivotOut} =
        shiftedLaw P (fun k => (R k).idx) {b | b = a ∧ b pivotIn = pivotOut} := by
  classical
  have hn := NeZero.pos n
  have hn' : (0 : ℝ) < n := by exact_mod_cast hn
  have hn0 : (n : ℝ≥0∞) ≠ 0 := by exact_mod_cast NeZero.ne n
  have hslot : shiftedLaw P (systematicIdx rng pf l n) {a | a pivotIn = pivotOut} =
      ENNReal.ofReal (nw l pivotOut) := by
    rw [shiftedLaw_slot, systematicIdx_mean h pf hl, ← mul_assoc,
      ENNReal.inv_mul_cancel hn0 (ENNReal.natCast_ne_top n), one_mul]
  refine ⟨_, _, fun k => systematic_eq rng pf k l pos n, fun k => rfl, hslot, fun a => ?_⟩
  simp only
  rw [hslot]
  obtain ⟨i, hi⟩ : ∃ i, i = pivotOut := ⟨_, rfl⟩
  rw [← hi] at hw hslot ⊢
  -- the rotated log-weights
  obtain ⟨l', hl'⟩ : ∃ l' : Fin N → Fl, l' = roll (fun j => l j - Fl.logsumexp l) (-((i : ℕ) : ℤ)) :=
    ⟨_, rfl⟩
  have hl'i : ∀ j, l' j = l (j + i) - Fl.logsumexp l := by
    intro j
    rw [hl', roll_sub _ _ 0 i (by simp) j]
    simp
  have hS := sum_lik_pos hl
  have hsub : ∀ j, (l j - Fl.logsumexp l).IsLog ∧ (l j - Fl.logsumexp l).lik = nw l j ∧
      ((l j).IsFin → (l j - Fl.logsumexp l).IsFin) := by
    intro j
    rw [logsumexp_eq hl]
    have := hl.1 j
    cases hlj : l j with
    | nan => rw [hlj] at this; exact this.elim
    | pinf => rw [hlj] at this; exact this.elim
    | ninf => rw [Fl.ninf_sub_fin]; exact ⟨trivial, by simp [nw, hlj, Fl.lik], fun h => h.elim⟩
    | fin r =>
      rw [Fl.fin_sub]
      refine ⟨trivial, ?_, fun _ => trivial⟩
      rw [Fl.lik, Real.exp_sub, Real.exp_log hS, nw, hlj, Fl.lik]
  have hlog' : IsLogits l' := by
    refine ⟨fun j => hl'i j ▸ (hsub (j + i)).1, ?_⟩
    obtain ⟨j, hj⟩ := hl.2
    refine ⟨j - i, ?_⟩
    rw [hl'i, sub_add_cancel]
    exact (hsub j).2.2 hj
  have hnw' : ∀ j, nw l' j = nw l (j + i) := by
    intro j
    have hsum : ∑ j, (l' j).lik = 1 := by
      simp only [hl'i, (hsub _).2.1]
      rw [← nw_sum hl]
      exact Equiv.sum_comp (Equiv.addRight i) (nw l)
    rw [nw, hsum, div_one, hl'i, (hsub _).2.1]
  have hnw0 : nw l' 0 = nw l i := by rw [hnw', zero_add]
  obtain ⟨x, hx⟩ : ∃ x : ℝ, x = n * nw l i := ⟨_, rfl⟩
  have hx0 : 0 < x := by rw [hx]; positivity
  -- the slots as a function of the point of the first arc
  obtain ⟨F, hF⟩ : ∃ F : ℝ → Fin n → Fin N, F = fun t (j : Fin n) =>
    arc pf l (cumBelow (nw l) i + (t + (((j : ℕ) : ℝ) - ((pivotIn : ℕ) : ℝ))) / n) := ⟨_, rfl⟩
  have hFm : Measurable F := by
    rw [hF]
    refine measurable_pi_iff.mpr fun j => ?_
    have h1 : Measurable fun t : ℝ =>
        cumBelow (nw l) i + (t + (((j : ℕ) : ℝ) - ((pivotIn : ℕ) : ℝ))) / n :=
      measurable_const.add ((measurable_id.add measurable_const).div_const _)
    exact (measurable_arc pf l).comp h1
  obtain ⟨g, hg⟩ : ∃ g : ℝ → ℝ≥0∞, g = fun t => if F t = a then 1 else 0 := ⟨_, rfl⟩
  have hgm : Measurable g := by
    rw [hg]
    exact Measurable.ite (hFm (measurableSet_singleton a)) measurable_const measurable_const
  -- the conditional scheme
  obtain ⟨D, hD⟩ : ∃ D : (Fin 3 → ℝ) → Fin n → Fin N, D = fun u =>
    roll (fun m => (roll id (-((i : ℕ) : ℤ)) : Fin N → Fin N)
      (systematicConditional00 pf (u 0) (u 1) (u 2) l' pivotIn.pos m)) (pivotIn : ℕ) := ⟨_, rfl⟩
  have hDeq : ∀ u : Fin 3 → ℝ, (0 < u 0 ∧ u 0 < 1) → (0 < u 1 ∧ u 1 < 1) → (0 < u 2 ∧ u 2 < 1) →
      D u = F (condPoint x u) := by
    intro u h0 h1 h2
    funext j
    obtain ⟨m, hm, hmod⟩ := exists_roll (fun m => (roll id (-((i : ℕ) : ℤ)) : Fin N → Fin N)
      (systematicConditional00 pf (u 0) (u 1) (u 2) l' pivotIn.pos m)) (pivotIn : ℕ) j
    rw [hD]
    simp only
    rw [hm, roll_sub _ _ 0 i (by simp), systematicConditional00_eq pf hlog' pivotIn.pos
      (by rw [hnw0]; exact hw) h0.1 h0.2 h1.1.le h2.1.le h2.2 rfl m, hF, hnw0, ← hx]
    simp only [id, zero_sub, sub_neg_eq_add]
    rw [← arc_rotate pf hl hlog' i hnw']
    have h3 := arc_congr pf l hn (cumBelow (nw l) i) (condOffset x (u 0) (u 1) +
        (⌊(nStrata x (condOffset x (u 0) (u 1)) : ℝ) * u 2⌋.toNat : ℕ)) hmod
    rw [condPoint]
    push_cast at h3 ⊢
    exact h3
  have h1 : P {k | D (rng.uniform k 3) = a} = ENNReal.ofReal x⁻¹ * ∫⁻ t in Ico 0 x, g t := by
    have hae : ∀ᵐ u ∂(Measure.pi fun _ : Fin 3 => unif), ∀ m, 0 < u m ∧ u m < 1 :=
      ae_all_iff.mpr fun m => (measurePreserving_eval (fun _ : Fin 3 => unif) m).quasiMeasurePreserving.ae
        unif_ae
    have hEm : MeasurableSet {u : Fin 3 → ℝ | F (condPoint x u) = a} :=
      (hFm.comp (measurable_condPoint x)) (measurableSet_singleton a)
    have e0 : {k | D (rng.uniform k 3) = a} =ᵐ[P] {k | F (condPoint x (rng.uniform k 3)) = a} := by
      refine ((h.uniform 3).quasiMeasurePreserving.ae hae).mono fun k hk => propext ?_
      change D (rng.uniform k 3) = a ↔ F (condPoint x (rng.uniform k 3)) = a
      rw [hDeq _ (hk 0) (hk 1) (hk 2)]
    have e1 : P {k | F (condPoint x (rng.uniform k 3)) = a} =
        (Measure.pi fun _ : Fin 3 => unif) {u | F (condPoint x u) = a} :=
      (h.uniform 3).measure_preimage hEm.nullMeasurableSet
    rw [measure_congr e0, e1, ← lintegral_indicator_one hEm, ← condPoint_law hgm hx0]
    refine lintegral_congr fun u => ?_
    rw [hg, indicator_apply]
    rfl
  have h2 : {k | roll (fun m => (roll id (-((i : ℕ) : ℤ)) : Fin N → Fin N)
      (systematicConditional00 pf (rng.uniform k 3 0) (rng.uniform k 3 1) (rng.uniform k 3 2)
        (roll (fun j => l j - Fl.logsumexp l) (-((i : ℕ) : ℤ))) pivotIn.pos m)) (pivotIn : ℕ) = a} =
      {k | D (rng.uniform k 3) = a} := by
    rw [hD, hl']
  rw [h2, h1]
  -- the unconditional scheme
  have h3 := shiftedLaw_systematic h pf hl (n := n) {b | b = a ∧ b pivotIn = i}
  rw [show (fun k => systematicIdx rng pf l n k) = systematicIdx rng pf l n from rfl, h3]
  have hper : ∀ (t : ℝ) (k : ℤ), ({b : Fin n → Fin N | b = a ∧ b pivotIn = i}.indicator (1 : (Fin n → Fin N) → ℝ≥0∞)
      fun j : Fin n => arc pf l ((t + k * n + (j : ℕ)) / n)) =
      {b : Fin n → Fin N | b = a ∧ b pivotIn = i}.indicator 1
        fun j : Fin n => arc pf l ((t + (j : ℕ)) / n) := by
    intro t k
    have e : (fun j : Fin n => arc pf l ((t + k * n + (j : ℕ)) / n)) =
        fun j : Fin n => arc pf l ((t + (j : ℕ)) / n) := by
      funext j
      rw [← arc_add_int pf l ((t + (j : ℕ)) / n) k]
      congr 1
      field_simp
      ring
    rw [e]
  rw [← lintegral_period hn' hper (n * cumBelow (nw l) i - (pivotIn : ℕ))]
  have hFt : ∀ t : ℝ, (fun j : Fin n => arc pf l
      ((t + (n * cumBelow (nw l) i - (pivotIn : ℕ)) + (j : ℕ)) / n)) = F t := by
    intro t
    rw [hF]
    funext j
    congr 1
    field_simp
    ring
  simp only [hFt]
  have hxn : x ≤ n := by
    rw [hx]; nlinarith [nw_le_one hl i]
  rw [← lintegral_Ico_union hx0.le hxn]
  have hFp : ∀ t, F t pivotIn = arc pf l (cumBelow (nw l) i + t / n) := by
    intro t
    rw [hF]
    simp
  have h4 : ∫⁻ t in Ico 0 x, {b : Fin n → Fin N | b = a ∧ b pivotIn = i}.indicator 1 (F t) =
      ∫⁻ t in Ico 0 x, g t := by
    rw [Measure.restrict_congr_set Ioo_ae_eq_Ico.symm]
    refine setLIntegral_congr_fun measurableSet_Ioo fun t ht => ?_
    have h5 : F t pivotIn = i := by
      rw [hFp, arc_iff pf hl]
      refine ⟨0, ?_, ?_⟩
      · have : 0 < t / n := div_pos ht.1 hn'
        push_cast; linarith
      · have : t / n ≤ nw l i := by
          rw [div_le_iff₀ hn', mul_comm, ← hx]; exact ht.2.le
        rw [cum_eq]; push_cast; linarith
    rw [hg]
    simp only [indicator_apply, mem_ofPred_eq, h5, and_true, Pi.one_apply]
  have h6 : ∫⁻ t in Ico x n, {b : Fin n → Fin N | b = a ∧ b pivotIn = i}.indicator 1 (F t) = 0 := by
    rw [Measure.restrict_congr_set Ioo_ae_eq_Ico.symm]
    have h7 : ∀ t ∈ Ioo x n, {b : Fin n → Fin N | b = a ∧ b pivotIn = i}.indicator (1 : (Fin n → Fin N) → ℝ≥0∞) (F t)
        = 0 := by
      intro t ht
      refine indicator_of_notMem ?_ _
      rintro ⟨-, h8⟩
      rw [hFp, arc_iff pf hl] at h8
      obtain ⟨k, h9, h10⟩ := h8
      rw [cum_eq] at h10
      have ht1 : t / n < 1 := by rw [div_lt_one hn']; exact ht.2
      have ht2 : nw l i < t / n := by
        rw [lt_div_iff₀ hn', mul_comm, ← hx]; exact ht.1
      have hk : (-1 : ℝ) < k := by linarith
      have hk' : (0 : ℤ) ≤ k := by
        have : (-1 : ℤ) < k := by exact_mod_cast hk
        omega
      have : (0 : ℝ) ≤ k := by exact_mod_cast hk'
      linarith
    rw [setLIntegral_congr_fun measurableSet_Ioo h7]
    simp
  rw [h4, h6, add_zero, mul_right_comm, ← ENNReal.ofReal_mul (by positivity)]
  congr 1
  rw [← ENNReal.ofReal_natCast, ← ENNReal.ofReal_inv_of_pos hn', hx]
  congr 1
  field_simp

end

/-! ### The hypotheses are met -/

/-- Ideal keys and two particles, one of which has weight zero. -/
example : ∃ (rng : Rng Key) (l : Fin 2 → Fl), IdealRng rng keyLaw ∧ IsLogits l ∧ nw l 1 = 0 ∧
    0 < nw l 0 :=
  let ⟨rng, h, _⟩ := exists_ideal_prefix
  ⟨rng, ![Fl.fin 0, Fl.ninf], h, ⟨fun i => by fin_cases i <;> trivial, 0, trivial⟩,
    by simp [nw, Fl.lik], by simp [nw, Fl.lik]⟩

/-- Two equally likely particles: conditional multinomial resampling of two slots, with the first
slot pinned to particle `0`, returns `(0, 1)` with probability `1 / 2`. -/
example (pf : Platform) : ∃ (rng : Rng Key) (C : Key → Resampled 2 2 Unit),
    (∀ k, multinomialConditional rng pf k ![Fl.fin 0, Fl.fin 0] (fun _ => ()) 2 0 0 = .ok (C k)) ∧
      keyLaw {k | (C k).idx = ![0, 1]} = 1 / 2 := by
  obtain ⟨rng, h, -⟩ := exists_ideal_prefix
  obtain ⟨R, C, hR, hC, h1, h2⟩ := multinomial_conditional_law h pf isLogits_pair (fun _ => ()) 2 0 0
  obtain ⟨R', hR', h3⟩ := multinomial_iid h pf isLogits_pair (fun _ => ()) 2
  have hRR : R = R' := funext fun k => by
    have := (hR k).symm.trans (hR' k)
    simpa using this
  refine ⟨rng, C, hC, ?_⟩
  have h4 := h2 ![0, 1]
  have h5 : {k | (R k).idx = ![0, 1] ∧ (R k).idx 0 = 0} = {k | (R k).idx = ![0, 1]} := by
    ext k
    simp only [mem_ofPred_eq, and_iff_left_iff_imp]
    intro hk
    rw [hk]; rfl
  rw [h1, h5, hRR, h3] at h4
  simp only [nw_pair, Finset.prod_const, Finset.card_univ, Fintype.card_fin] at h4
  rw [pow_two] at h4
  have h6 : ENNReal.ofReal (1 / 2) = 1 / 2 := by
    rw [ENNReal.ofReal_div_of_pos two_pos]; simp
  rw [h6] at h4
  exact (ENNReal.mul_left_inj (by simp) (by simp)).mp h4

end

end Cuthbert.Resampling
