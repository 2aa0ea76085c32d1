import Verif.Lemmas.InvariantBackward
import Verif.Props.BackwardSampling
import Verif.Props.MCMCTrajectories

/-!
# Properties: unbiased path estimates from MCMC backward sampling (C125)
-/

namespace Cuthbert.SMC
open MeasureTheory Set Resampling Spec
open scoped ENNReal

noncomputable section

variable {K X Inp : Type} {N n : ℕ}

/-! ### Backward samplers that leave the backward distributions invariant -/

/-- The sampler treats its slots separately and alike, and every slot leaves its backward distribution invariant. -/
structure InvariantSampler [MeasurableSpace K] [MeasurableSpace X] (P : Measure K) (n : ℕ) (ld : X → X → Fl)
    (B : BackIdx K X N) : Prop where
  slotwise : ∀ k x0 (x1 : Fin n → X) l a m, B k x0 n x1 l ld a m = B k x0 n (fun _ => x1 m) l ld (fun _ => a m) m
  measurable : ∀ i m, Measurable fun q : K × Core X N × X =>
    B q.1 q.2.1.1 n (fun _ => q.2.2) q.2.1.2.1 ld (fun _ => i) m
  alike : ∀ (m m' : Fin n) (c : Core X N), IsLogits c.2.1 → ∀ x' i j,
    P {k | B k c.1 n (fun _ => x') c.2.1 ld (fun _ => i) m = j} =
      P {k | B k c.1 n (fun _ => x') c.2.1 ld (fun _ => i) m' = j}
  invariant : ∀ (m : Fin n) (c : Core X N), IsLogits c.2.1 → ∀ x' j,
    ∑ i, ENNReal.ofReal (nw c.2.1 i) * ENNReal.ofReal (ld (c.1 i) x').lik *
        P {k | B k c.1 n (fun _ => x') c.2.1 ld (fun _ => i) m = j} =
      ENNReal.ofReal (nw c.2.1 j) * ENNReal.ofReal (ld (c.1 j) x').lik

/-- The moves of one slot. -/
def slotLaw [MeasurableSpace K] (P : Measure K) (B : BackIdx K X N) (ld : X → X → Fl) (m : Fin n) (c : Core X N) (x' : X)
    (i j : Fin N) : ℝ≥0∞ := P {k | B k c.1 n (fun _ => x') c.2.1 ld (fun _ => i) m = j}

theorem InvariantSampler.kernel [MeasurableSpace K] [MeasurableSpace X] {P : Measure K} [IsProbabilityMeasure P]
    {ld : X → X → Fl} {B : BackIdx K X N} (hB : InvariantSampler P n ld B) (m : Fin n) :
    InvariantKernel ld (slotLaw P B ld m) where
  measurable i j := by
    have h1 : MeasurableSet {q : K × Core X N × X | B q.1 q.2.1.1 n (fun _ => q.2.2) q.2.1.2.1 ld (fun _ => i) m = j} :=
      hB.measurable i m (measurableSet_singleton j)
    exact measurable_measure_prodMk_right h1
  invariant c hc x' j := hB.invariant m c hc x' j

/-! ### One path -/

/-- The path that backward sampling with the keys `ks` gives in slot `m` for particle `i` at time `t`. -/
def invPath (B : BackIdx K X N) (ld : ℕ → X → X → Fl) (H : ℕ → Hist X N) (m : Fin n) (ks : ℕ → K) :
    ℕ → Fin N → ℕ → X
  | 0, i => fun _ => (H 0).1.1 i
  | t + 1, i => splice t (invPath B ld H m ks t (B (ks t) (H t).1.1 n (fun _ => (H (t + 1)).1.1 i) (H t).1.2.1 (ld t)
      (fun _ => (H (t + 1)).2 i) m)) ((H (t + 1)).1.1 i)

theorem invPath_congr {B : BackIdx K X N} {ld : ℕ → X → X → Fl} {H : ℕ → Hist X N} {m : Fin n} {ks ks' : ℕ → K} :
    ∀ (t : ℕ) (i : Fin N), (∀ s < t, ks s = ks' s) → invPath B ld H m ks t i = invPath B ld H m ks' t i
  | 0, _, _ => rfl
  | t + 1, i, h => by
    rw [invPath, invPath, h t (by omega), invPath_congr t _ fun s hs => h s (by omega)]

theorem invPath_self {B : BackIdx K X N} {ld : ℕ → X → X → Fl} {H : ℕ → Hist X N} {m : Fin n} {ks : ℕ → K} (t : ℕ)
    (i : Fin N) : invPath B ld H m ks t i t = (H t).1.1 i := by
  cases t with
  | zero => rfl
  | succ t => rw [invPath, splice, if_neg (by omega)]

/-- The particles of slot `m` of a run of the smoother form such a path. -/
theorem backIdx_inv {B : BackIdx K X N} (F : ℕ → PFState K X Inp N) (ld : ℕ → X → X → Fl)
    (hB : ∀ t k x0 (x1 : Fin n → X) l a m, B k x0 n x1 l (ld t) a m = B k x0 n (fun _ => x1 m) l (ld t) (fun _ => a m) m)
    (keys : ℕ → K) (T : ℕ) (J : Fin n → Fin N) (m : Fin n) : ∀ s ≤ T, ∀ t, t ≤ T - s →
      invPath B ld (fun t => (F t).hist) m keys (T - s) (backIdx B F ld keys T J s m) t =
        invPath B ld (fun t => (F t).hist) m keys T (J m) t
  | 0, _, t, _ => rfl
  | s + 1, hs, t, ht => by
    rw [← backIdx_inv F ld hB keys T J m s (by omega) t (by omega)]
    have h : T - s = (T - (s + 1)) + 1 := by omega
    rw [backIdx, hB]
    generalize backIdx B F ld keys T J s m = r
    rw [h, invPath, splice, if_pos ht]
    rfl

theorem backIdx_inv_eq {B : BackIdx K X N} (F : ℕ → PFState K X Inp N) (ld : ℕ → X → X → Fl)
    (hB : ∀ t k x0 (x1 : Fin n → X) l a m, B k x0 n x1 l (ld t) a m = B k x0 n (fun _ => x1 m) l (ld t) (fun _ => a m) m)
    (keys : ℕ → K) (T : ℕ) (J : Fin n → Fin N) (m : Fin n) (t : ℕ) (ht : t ≤ T) :
    (F t).particles (backIdx B F ld keys T J (T - t) m) =
      invPath B ld (fun t => (F t).hist) m keys T (J m) t := by
  rw [← backIdx_inv F ld hB keys T J m (T - t) (by omega) t (by omega), show T - (T - t) = t by omega, invPath_self]
  rfl

section law

variable [MeasurableSpace K] [MeasurableSpace X] {P : Measure K} {rng : Rng K} {B : BackIdx K X N}

theorem measurable_invPath {ld : ℕ → X → X → Fl} (hB : ∀ t, InvariantSampler P n (ld t) B) (H : ℕ → Hist X N)
    (m : Fin n) : ∀ (t : ℕ) (i : Fin N) (ψ : (ℕ → X) → ℝ≥0∞),
    Measurable fun ks : ℕ → K => ψ (invPath B ld H m ks t i)
  | 0, _, _ => by
    simp only [invPath]
    exact measurable_const
  | t + 1, i, ψ => by
    obtain ⟨D, hD⟩ : ∃ D : K → Fin N, D = fun k => B k (H t).1.1 n (fun _ => (H (t + 1)).1.1 i) (H t).1.2.1 (ld t)
      (fun _ => (H (t + 1)).2 i) m := ⟨_, rfl⟩
    have hDm : Measurable D := by
      rw [hD]
      exact ((hB t).measurable ((H (t + 1)).2 i) m).comp
        (measurable_id.prodMk (measurable_const (a := ((H t).1, (H (t + 1)).1.1 i))))
    have h1 : ∀ ks : ℕ → K, ψ (invPath B ld H m ks (t + 1) i) = ∑ j, (if D (ks t) = j then 1 else 0) *
        ψ (splice t (invPath B ld H m ks t j) ((H (t + 1)).1.1 i)) := by
      intro ks
      rw [Finset.sum_eq_single (D (ks t))]
      · rw [if_pos rfl, one_mul, invPath, hD]
      · intro j _ hj
        rw [if_neg hj.symm, zero_mul]
      · simp
    simp only [h1]
    refine Finset.measurable_sum _ fun j _ => ?_
    have h2 : Measurable fun ks : ℕ → K => D (ks t) := hDm.comp (measurable_pi_apply t)
    have h3 : Measurable fun r : Fin N => if r = j then (1 : ℝ≥0∞) else 0 := measurable_of_finite _
    exact (h3.comp h2).mul (measurable_invPath hB H m t j fun p => ψ (splice t p ((H (t + 1)).1.1 i)))

/-- The expectation over the keys. -/
theorem lintegral_invPath [IsProbabilityMeasure P] {ld : ℕ → X → X → Fl} (hB : ∀ t, InvariantSampler P n (ld t) B)
    (H : ℕ → Hist X N) (m m0 : Fin n) (k0 : K) : ∀ (t : ℕ) (i : Fin N) (ψ : (ℕ → X) → ℝ≥0∞),
    (∀ s < t, IsLogits (H s).1.2.1) →
    ∫⁻ y : Fin t → K, ψ (invPath B ld H m (extendKeys k0 y) t i) ∂(Measure.pi fun _ => P) =
      invExp (fun t => slotLaw P B (ld t) m0) H t i ψ
  | 0, i, ψ, _ => by
    simp [invPath, invExp]
  | t + 1, i, ψ, hl => by
    obtain ⟨D, hD⟩ : ∃ D : K → Fin N, D = fun k => B k (H t).1.1 n (fun _ => (H (t + 1)).1.1 i) (H t).1.2.1 (ld t)
      (fun _ => (H (t + 1)).2 i) m := ⟨_, rfl⟩
    have hDm : Measurable D := by
      rw [hD]
      exact ((hB t).measurable ((H (t + 1)).2 i) m).comp
        (measurable_id.prodMk (measurable_const (a := ((H t).1, (H (t + 1)).1.1 i))))
    have h0 : Measurable fun y : Fin (t + 1) → K => ψ (invPath B ld H m (extendKeys k0 y) (t + 1) i) :=
      (measurable_invPath hB H m (t + 1) i ψ).comp (measurable_extendKeys k0 (t + 1))
    rw [lintegral_pi_snoc P h0]
    have h1 : ∀ (c : K) (y : Fin t → K), invPath B ld H m (extendKeys k0 (Fin.snoc (α := fun _ => K) y c)) (t + 1) i =
        splice t (invPath B ld H m (extendKeys k0 y) t (D c)) ((H (t + 1)).1.1 i) := by
      intro c y
      have h2 : extendKeys k0 (Fin.snoc (α := fun _ => K) y c) t = c := by
        rw [extendKeys, dif_pos (by omega)]
        exact Fin.snoc_last (α := fun _ => K) c y
      rw [invPath, h2, hD]
      rw [invPath_congr (ks' := extendKeys k0 y) t _ fun s hs => ?_]
      rw [extendKeys, dif_pos (by omega), extendKeys, dif_pos hs]
      exact Fin.snoc_castSucc (α := fun _ => K) c y ⟨s, hs⟩
    simp only [h1]
    have h2 : ∀ c, ∫⁻ y : Fin t → K, ψ (splice t (invPath B ld H m (extendKeys k0 y) t (D c))
        ((H (t + 1)).1.1 i)) ∂(Measure.pi fun _ => P) =
        ∑ j, (if D c = j then 1 else 0) *
          invExp (fun t => slotLaw P B (ld t) m0) H t j fun p => ψ (splice t p ((H (t + 1)).1.1 i)) := by
      intro c
      rw [Finset.sum_eq_single (D c)]
      · rw [if_pos rfl, one_mul]
        exact lintegral_invPath hB H m m0 k0 t _ (fun p => ψ (splice t p ((H (t + 1)).1.1 i)))
          fun s hs => hl s (by omega)
      · intro j _ hj
        rw [if_neg hj.symm, zero_mul]
      · simp
    simp only [h2]
    have h3 : ∀ j, Measurable fun c => if D c = j then (1 : ℝ≥0∞) else 0 := by
      intro j
      have h5 : Measurable fun r : Fin N => if r = j then (1 : ℝ≥0∞) else 0 := measurable_of_finite _
      exact h5.comp hDm
    rw [lintegral_finsetSum' _ fun j _ => ((h3 j).mul_const _).aemeasurable, invExp]
    refine Finset.sum_congr rfl fun j _ => ?_
    rw [lintegral_mul_const _ (h3 j)]
    congr 1
    rw [slotLaw, ← (hB t).alike m m0 _ (hl t (by omega)),
      ← lintegral_indicator_one (show MeasurableSet {k | _ = j} from by
        have := hDm (measurableSet_singleton j)
        rw [hD] at this
        exact this)]
    refine lintegral_congr fun c => ?_
    rw [hD]
    simp [indicator_apply]

variable [NeZero N] (h : IdealRng rng P)

include h

omit [NeZero N] in
/-- The expected sum over all slots of a run of the smoother. -/
theorem lintegral_invPath_sum {ld : ℕ → X → X → Fl} (hB : ∀ t, InvariantSampler P n (ld t) B) (H : ℕ → Hist X N) (T : ℕ)
    (m0 : Fin n) {I : K → (Fin N → Fl) → Fin n → Fin N}
    (hI : UnbiasedIdx P n I) (hl : ∀ t ≤ T, IsLogits (H t).1.2.1) (ψ : (ℕ → X) → ℝ≥0∞) :
    Measurable (fun k => ∑ m, ψ (invPath B ld H m (backKey rng.toPrng k T) T
      (I (rng.nth (rng.nth k (T + 1) 0) 2 1) (H T).1.2.1 m))) ∧
    ∫⁻ k, ∑ m, ψ (invPath B ld H m (backKey rng.toPrng k T) T
        (I (rng.nth (rng.nth k (T + 1) 0) 2 1) (H T).1.2.1 m)) ∂P =
      n * ∑ i, ENNReal.ofReal (nw (H T).1.2.1 i) * invExp (fun t => slotLaw P B (ld t) m0) H T i ψ := by
  have := h.prob
  obtain ⟨k0⟩ : Nonempty K := by
    by_contra hne
    have : IsEmpty K := not_nonempty_iff.mp hne
    have h1 : P univ = 1 := measure_univ
    rw [univ_eq_empty_iff.mpr this, measure_empty] at h1
    exact zero_ne_one h1
  obtain ⟨J, hJ⟩ : ∃ J : K → Fin n → Fin N, J = fun k => I k (H T).1.2.1 := ⟨_, rfl⟩
  have hJm : Measurable J := by
    rw [hJ]
    exact measurable_to_countable' fun b => hI.measurable_idx _ b
  have h1 : ∀ k m, invPath B ld H m (backKey rng.toPrng k T) T
        (I (rng.nth (rng.nth k (T + 1) 0) 2 1) (H T).1.2.1 m) =
      invPath B ld H m (extendKeys k0 (Fin.tail (rng.nth k (T + 1)))) T
        (J (rng.nth (rng.nth k (T + 1) 0) 2 1) m) := by
    intro k m
    rw [hJ]
    refine invPath_congr T _ fun s hs => ?_
    rw [backKey, dif_pos hs, extendKeys, dif_pos hs]
    rfl
  simp only [h1]
  have h2 : Measurable fun keys : Fin (T + 1) → K => Fin.tail keys :=
    measurable_pi_iff.mpr fun i => measurable_pi_apply i.succ
  have hm : ∀ m, Measurable fun keys : Fin (T + 1) → K => ψ (invPath B ld H m (extendKeys k0 (Fin.tail keys)) T
      (J (rng.nth (keys 0) 2 1) m)) := by
    intro m
    have h3 : ∀ keys : Fin (T + 1) → K, ψ (invPath B ld H m (extendKeys k0 (Fin.tail keys)) T
        (J (rng.nth (keys 0) 2 1) m)) = ∑ i, (if J (rng.nth (keys 0) 2 1) m = i then 1 else 0) *
          ψ (invPath B ld H m (extendKeys k0 (Fin.tail keys)) T i) := by
      intro keys
      rw [Finset.sum_eq_single (J (rng.nth (keys 0) 2 1) m)]
      · rw [if_pos rfl, one_mul]
      · intro j _ hj
        rw [if_neg hj.symm, zero_mul]
      · simp
    simp only [h3]
    refine Finset.measurable_sum _ fun i _ => ?_
    have h4 : Measurable fun r : Fin n → Fin N => if r m = i then (1 : ℝ≥0∞) else 0 := measurable_of_finite _
    have h5 : Measurable fun keys : Fin (T + 1) → K => J (rng.nth (keys 0) 2 1) :=
      hJm.comp ((h.measurable_nth 2 1).comp (measurable_pi_apply 0))
    have h6 : Measurable fun keys : Fin (T + 1) → K => extendKeys k0 (Fin.tail keys) :=
      (measurable_extendKeys k0 T).comp h2
    exact (h4.comp h5).mul ((measurable_invPath hB H m T i ψ).comp h6)
  have hms : Measurable fun keys : Fin (T + 1) → K => ∑ m, ψ (invPath B ld H m (extendKeys k0 (Fin.tail keys)) T
      (J (rng.nth (keys 0) 2 1) m)) := Finset.measurable_sum _ fun m _ => hm m
  refine ⟨hms.comp (h.split (T + 1)).measurable, ?_⟩
  refine ((h.split (T + 1)).lintegral_comp hms).trans ?_
  rw [lintegral_finsetSum' _ fun m _ => (hm m).aemeasurable]
  obtain ⟨E, hE⟩ : ∃ E : Fin N → ℝ≥0∞, E = fun i => invExp (fun t => slotLaw P B (ld t) m0) H T i ψ := ⟨_, rfl⟩
  have h3 : ∀ m, ∫⁻ keys : Fin (T + 1) → K, ψ (invPath B ld H m (extendKeys k0 (Fin.tail keys)) T
      (J (rng.nth (keys 0) 2 1) m)) ∂(Measure.pi fun _ => P) = ∫⁻ k, E (J k m) ∂P := by
    intro m
    rw [lintegral_pi_cons P (hm m)]
    simp only [Fin.cons_zero, Fin.tail_cons]
    have h4 : ∀ i, ∫⁻ y : Fin T → K, ψ (invPath B ld H m (extendKeys k0 y) T i) ∂(Measure.pi fun _ => P) = E i := by
      intro i
      rw [hE]
      exact lintegral_invPath hB H m m0 k0 T i ψ fun s hs => hl s hs.le
    simp only [h4]
    have h5 : Measurable fun k => E (J k m) := (measurable_of_finite fun r : Fin n → Fin N => E (r m)).comp hJm
    exact (h.measurePreserving_nth 2 1).lintegral_comp h5
  simp only [h3]
  have h4 : ∀ m, Measurable fun k => E (J k m) := fun m =>
    (measurable_of_finite fun r : Fin n → Fin N => E (r m)).comp hJm
  rw [← lintegral_finsetSum' _ fun m _ => (h4 m).aemeasurable, hJ]
  have h5 := hI.average _ (hl T le_rfl) E
  rw [h5, hE]

end law

/-! ### The run of the smoother -/

section main

variable [MeasurableSpace K] [MeasurableSpace X] {P : Measure K} {rng : Rng K}

omit [MeasurableSpace K] [MeasurableSpace X] in
/-- The paths of the smoother after a run of the filter with final states `F`. -/
theorem inv_smoother_returns (F : ℕ → PFState K X Inp N) {u : Inp} {us : List Inp} {R : Resampler K N X}
    {sampler : BackwardSampler K X N} {B : BackIdx K X N} (hS : SamplesBy sampler B)
    {J : K → (Fin N → Fl) → Fin n → Fin N}
    (hRJ : ∀ k l pos, R k l pos n = .ok ⟨J k l, fun _ => 0, fun m => pos (J k l m)⟩)
    (inputsOf : Except Err (PFState K X Inp N) → Inp) (dummyInp : Inp → Except Err Inp)
    (logPotential : X → X → Inp → Fl) {d d' : Inp} (hdd : dummyInp u = .ok d) (hdd' : dummyInp d = .ok d')
    {ld : ℕ → X → X → Fl} (hld : ld = usedDensity logPotential (u :: us) d')
    (hB : ∀ t k x0 (x1 : Fin n → X) l a m, B k x0 n x1 l (ld t) a m = B k x0 n (fun _ => x1 m) l (ld t) (fun _ => a m) m)
    (k' : K) :
    SmootherReturns rng.toPrng inputsOf dummyInp
      (particleSmoother rng.toPrng dummyInp logPotential sampler R n) F (u :: us) k'
      fun m => invPath B ld (fun t => (F t).hist) m (backKey rng.toPrng k' (us.length + 1)) (us.length + 1)
        (J (rng.nth (rng.nth k' (us.length + 2) 0) 2 1) (F (us.length + 1)).logWeights m) := by
  obtain ⟨keys, inputs, weights, h1⟩ := smoother_run rng inputsOf dummyInp logPotential hS R n F u us hdd hdd'
    (fun k => hRJ k _ _) k'
  refine ⟨keys, fun t m => (F t).ancestors (backIdx B F (usedDensity logPotential (u :: us) d')
      (backKey rng.toPrng k' (us.length + 1)) (us.length + 1)
      (J (rng.nth (rng.nth k' (us.length + 2) 0) 2 1) (F (us.length + 1)).logWeights) (us.length + 1 - t) m),
    inputs, weights, h1.trans (congrArg Except.ok (List.map_congr_left fun t ht => ?_))⟩
  have ht' : t < us.length + 2 := by simpa using ht
  congr 1
  rw [← hld]
  have h2 := fun m => backIdx_inv_eq F ld hB (backKey rng.toPrng k' (us.length + 1)) (us.length + 1)
    (J (rng.nth (rng.nth k' (us.length + 2) 0) 2 1) (F (us.length + 1)).logWeights) m t (by omega)
  simp only [h2]

/-- The smoother after a run of the filter with final states `F`, when its own key is integrated out. -/
theorem inv_smoother_given_filter [NeZero N] [NeZero n] (h : IdealRng rng P) (F : ℕ → PFState K X Inp N)
    {u : Inp} {us : List Inp} {pf : Platform} {R : Resampler K N X}
    {sampler : BackwardSampler K X N} {B : BackIdx K X N} (hS : SamplesBy sampler B)
    (hR : R = multinomial rng pf ∨ R = systematic rng pf ∨ n = N ∧ R = killing rng pf)
    (inputsOf : Except Err (PFState K X Inp N) → Inp) (dummyInp : Inp → Except Err Inp)
    (logPotential : X → X → Inp → Fl) {d d' : Inp} (hdd : dummyInp u = .ok d) (hdd' : dummyInp d = .ok d')
    (hB : ∀ t, InvariantSampler P n (usedDensity logPotential (u :: us) d' t) B)
    (hF : (∀ t ≤ us.length + 1, IsLogits (F t).logWeights) ∨ (F (us.length + 1)).logZ = Fl.ninf) :
    ∃ p : K → Fin n → ℕ → X,
      (∀ k, SmootherReturns rng.toPrng inputsOf dummyInp
        (particleSmoother rng.toPrng dummyInp logPotential sampler R n) F (u :: us) k (p k)) ∧
      ∀ f : (ℕ → X) → ℝ≥0∞, ∫⁻ k, ENNReal.ofReal (F (us.length + 1)).logZ.lik * ((∑ m, f (p k m)) / n) ∂P =
        invEst (fun t => slotLaw P B (usedDensity logPotential (u :: us) d' t) (0 : Fin n)) (fun t => (F t).hist)
          (us.length + 1) f := by
  have := h.prob
  obtain ⟨J, hJ, hRJ⟩ : ∃ J : K → (Fin N → Fl) → Fin n → Fin N, UnbiasedIdx P n J ∧
      ∀ k l pos, R k l pos n = .ok ⟨J k l, fun _ => 0, fun m => pos (J k l m)⟩ := by
    rcases hR with rfl | rfl | ⟨rfl, rfl⟩
    · exact ⟨_, unbiasedIdx_multinomial h pf n, fun k l pos => multinomial_eq rng pf k l pos n⟩
    · exact ⟨_, unbiasedIdx_systematic h pf n, fun k l pos => systematic_eq rng pf k l pos n⟩
    · exact ⟨_, unbiasedIdx_killing h pf, fun k l pos => killing_eq rng pf k l pos⟩
  obtain ⟨ld, hld⟩ : ∃ ld, ld = usedDensity logPotential (u :: us) d' := ⟨_, rfl⟩
  rw [← hld] at hB
  refine ⟨fun k' m => invPath B ld (fun t => (F t).hist) m (backKey rng.toPrng k' (us.length + 1)) (us.length + 1)
      (J (rng.nth (rng.nth k' (us.length + 2) 0) 2 1) (F (us.length + 1)).logWeights m),
    fun k' => ?_, fun f => ?_⟩
  · exact inv_smoother_returns F hS hRJ inputsOf dummyInp logPotential hdd hdd' hld (fun t => (hB t).slotwise) k'
  · rw [invEst, ← hld]
    rcases hF with h3 | h3
    · obtain ⟨h4, h5⟩ := lintegral_invPath_sum h hB (fun t => (F t).hist) (us.length + 1) 0 hJ h3 f
      simp only [div_eq_mul_inv]
      have h6 : ((fun t => (F t).hist) (us.length + 1)).1.2.1 = (F (us.length + 1)).logWeights := rfl
      rw [h6] at h4 h5
      rw [lintegral_const_mul _ (h4.mul_const _), lintegral_mul_const _ h4, h5, mul_comm (n : ℝ≥0∞), mul_assoc,
        ENNReal.mul_inv_cancel (by exact_mod_cast NeZero.ne n) (ENNReal.natCast_ne_top n), mul_one]
      rfl
    · have h4 : ((F (us.length + 1)).hist).1.2.2 = Fl.ninf := h3
      simp only [h3, h4, Fl.lik, ENNReal.ofReal_zero, zero_mul, lintegral_zero]

variable {mdl : FKModel K X Inp}

omit [MeasurableSpace K] [MeasurableSpace X] in
theorem ninf_of_isLog_add {a b : Fl} (h : (a + b).IsLog) (hb : b = Fl.ninf) : a + b = Fl.ninf := by
  subst hb
  cases a with
  | nan => exact absurd h id
  | pinf => exact absurd h id
  | ninf => rfl
  | fin r => rfl

omit [MeasurableSpace K] [MeasurableSpace X] in
/-- A filter whose evidence estimate is not zero has had weights at all times. -/
theorem pfRun_alive [NeZero N] {I : K → (Fin N → Fl) → Fin N → Fin N} {L : K → (Fin N → Fl) → Fin N → Fl} {u0 : Inp}
    {us : List Inp} {k : K}
    (hg : ∀ t ≤ us.length, Good (RevivesDead L) (pfRun rng.toPrng mdl I L u0 us k t).core) :
    (∀ t ≤ us.length, IsLogits (pfRun rng.toPrng mdl I L u0 us k t).logWeights) ∨
      (pfRun rng.toPrng mdl I L u0 us k us.length).logZ = Fl.ninf := by
  by_cases h : ∀ t ≤ us.length, IsLogits (pfRun rng.toPrng mdl I L u0 us k t).logWeights
  · exact .inl h
  push Not at h
  obtain ⟨t, ht, h1⟩ := h
  have h2 : (pfRun rng.toPrng mdl I L u0 us k t).logZ = Fl.ninf := by
    rcases (hg t ht).alive with h3 | h3
    · exact absurd h3 h1
    · exact h3.2
  have h3 : ∀ s, t + s ≤ us.length → (pfRun rng.toPrng mdl I L u0 us k (t + s)).logZ = Fl.ninf := by
    intro s
    induction s with
    | zero => exact fun _ => h2
    | succ s ih =>
      intro hs
      have h4 := (hg (t + s + 1) (by omega)).logZ
      rw [← add_assoc]
      rw [pfRun_succ u0 us k (t + s) (by omega)] at h4 ⊢
      exact ninf_of_isLog_add h4 (ih (by omega))
  have h4 := h3 (us.length - t) (by omega)
  rw [show t + (us.length - t) = us.length by omega] at h4
  exact .inr h4

/-- C125, for every backward sampler that leaves the backward distributions invariant. -/
theorem invariant_smoother_unbiased [NeZero N] [NeZero n] (h : IdealRng rng P) (hind : IndepSplit rng.toPrng P)
    {R' : Resampler K N X} {I : K → (Fin N → Fl) → Fin N → Fin N} {L : K → (Fin N → Fl) → Fin N → Fl}
    (hR' : Uses R' I L) (hU : UnbiasedWeights P I L) {u0 u : Inp} {us : List Inp}
    (h0 : Measurable fun k => mdl.initSample k u0) (hu : ∀ v ∈ u :: us, mdl.Regular v)
    (hd : RevivesDead L ∨ ∀ v ∈ u :: us, ∀ x x', (mdl.logPotential x x' v).IsFin) (dummy : X)
    {pf : Platform} {R : Resampler K N X} {sampler : BackwardSampler K X N} {B : BackIdx K X N}
    (hS : SamplesBy sampler B)
    (hR : R = multinomial rng pf ∨ R = systematic rng pf ∨ n = N ∧ R = killing rng pf)
    (inputsOf : Except Err (PFState K X Inp N) → Inp) (dummyInp : Inp → Except Err Inp)
    {logPotential : X → X → Inp → Fl}
    (hlp : ∀ v ∈ u :: us, ∀ w, BackwardDensity (mdl.step P v) fun x x' => logPotential x x' w)
    (hB : ∀ w, InvariantSampler P n (fun x x' => logPotential x x' w) B)
    {d d' : Inp} (hdd : dummyInp u = .ok d) (hdd' : dummyInp d = .ok d') :
    ∃ (S : K → ℕ → PFState K X Inp N) (p : K → K → Fin n → ℕ → X),
      (∀ k, filter rng.toPrng (particleFilter rng.toPrng mdl dummy N R') (u0 :: u :: us) false (some k) =
        ⟨false, .ok ((List.range (us.length + 2)).map fun t => .ok (S k t))⟩) ∧
      (∀ k k', SmootherReturns rng.toPrng inputsOf dummyInp
        (particleSmoother rng.toPrng dummyInp logPotential sampler R n) (S k) (u :: us) k' (p k k')) ∧
      ∀ f : (ℕ → X) → ℝ≥0∞, Measurable f →
        ∫⁻ k, ∫⁻ k', ENNReal.ofReal (S k (us.length + 1)).logZ.lik * ((∑ m, f (p k k' m)) / n) ∂P ∂P =
          fkExp (mdl.init P u0) ((u :: us).map (mdl.step P)) f := by
  have := h.prob
  have hldd : ∀ s (hs : s < (u :: us).length), BackwardDensity (mdl.step P (u :: us)[s])
      (usedDensity logPotential (u :: us) d' s) := fun s hs => hlp _ (List.getElem_mem hs) _
  have hg := fun k => pfRun_good (rng := rng.toPrng) (mdl := mdl) (I := I) hU.isLogits u0 (u :: us) k
    (fun u h => (hu u h).isLog) hd
  have key := fun k => inv_smoother_given_filter (n := n) h (pfRun rng.toPrng mdl I L u0 (u :: us) k) hS hR inputsOf
    dummyInp logPotential hdd hdd' (fun t => hB _) (pfRun_alive (hg k))
  choose p hp1 hp2 using key
  refine ⟨fun k t => pfRun rng.toPrng mdl I L u0 (u :: us) k t, p, fun k => filter_pf_eq hR' dummy u0 (u :: us) k,
    hp1, fun f hf => ?_⟩
  rw [← lintegral_invEst_run h hU hind h0 (ld := usedDensity logPotential (u :: us) d')
    (fun t => (hB _).kernel (0 : Fin n)) hf (u :: us) hu hldd hd]
  exact lintegral_congr fun k => hp2 k f

end main

/-! ### The samplers -/

section samplers

variable [MeasurableSpace K] [MeasurableSpace X] {P : Measure K} {rng : Rng K}

/-- Tracing leaves everything where it is. -/
theorem invariantSampler_tracing [IsProbabilityMeasure P] (ld : X → X → Fl) :
    InvariantSampler P n ld (tracingIdx : BackIdx K X N) where
  slotwise _ _ _ _ _ _ := rfl
  measurable _ _ := measurable_const
  alike _ _ _ _ _ _ _ := rfl
  invariant m c _ x' j := by
    rw [Finset.sum_eq_single j]
    · simp [tracingIdx]
    · intro i _ hi
      simp [tracingIdx, hi]
    · simp

/-- Exact backward sampling does not depend on where it starts. -/
theorem invariantSampler_exact [NeZero N] (h : IdealRng rng P) {ld : X → X → Fl} (hld : ∀ x x', (ld x x').IsLog)
    (hm : Measurable fun q : X × X => ld q.1 q.2) : InvariantSampler P n ld (exactIdx rng : BackIdx K X N) := by
  have hlaw : ∀ (m : Fin n) (c : Core X N) x' (i j : Fin N), P {k | exactIdx rng k c.1 n (fun _ => x') c.2.1 ld
      (fun _ => i) m = j} = backLaw P rng ld c x' j := fun m c x' i j =>
    (h.measurePreserving_nth n m).measure_preimage (measurableSet_categorical h _ j).nullMeasurableSet
  refine ⟨fun _ _ _ _ _ _ => rfl, fun i m => ?_, fun m m' c _ x' i j => ?_, fun m c hc x' j => ?_⟩
  · have h3 : Measurable fun (q : K × Core X N × X) (i : Fin N) => q.2.1.2.1 i + ld (q.2.1.1 i) q.2.2 := by
      refine measurable_pi_iff.mpr fun i => ?_
      have hc : Measurable fun q : K × Core X N × X => q.2.1 := measurable_fst.comp measurable_snd
      have h4 : Measurable fun q : K × Core X N × X => q.2.1.2.1 i :=
        (measurable_pi_apply i).comp (measurable_fst.comp (measurable_snd.comp hc))
      have h5 : Measurable fun q : K × Core X N × X => (q.2.1.1 i, q.2.2) :=
        ((measurable_pi_apply i).comp (measurable_fst.comp hc)).prodMk (measurable_snd.comp measurable_snd)
      exact Fl.measurable_add.comp (h4.prodMk (hm.comp h5))
    have h1 : Measurable fun q : K × Core X N × X => exactLogWeights q.2.1.1 q.2.2 q.2.1.2.1 ld := by
      refine measurable_pi_iff.mpr fun i => ?_
      exact ((measurable_pi_apply i).comp h3).fl_sub (Fl.measurable_logsumexp.comp h3)
    have h2 : Measurable fun q : K × Core X N × X => (rng.nth q.1 n m, exactLogWeights q.2.1.1 q.2.2 q.2.1.2.1 ld) :=
      ((h.measurable_nth n m).comp measurable_fst).prodMk h1
    exact (h.categorical_measurable N).comp h2
  · rw [hlaw, hlaw]
  · simp only [hlaw]
    rw [← Finset.sum_mul, mixture_mul_backLaw h hld hc]

omit [MeasurableSpace K] [MeasurableSpace X] in
theorem runIdx_slot [NeZero N] (pf : Platform) (l : Fin N → Fl) (p : Fin n → Fin N → Fl) (c : Fin n → Fl)
    (s : Fin n → Fin N × Bool) (m : Fin n) : ∀ (t N' : ℕ) (h : t * 2 ≤ N') (keys : Fin N' → K),
    runIdx (extMove rng pf l p c) s t N' h keys m =
      runIdx (extMove rng pf l (fun _ => p m) fun _ => c m) (fun _ : Fin n => s m) t N' h keys m
  | 0, _, _, _ => rfl
  | t + 1, N', h, keys => by
    rw [runIdx, runIdx, extMove, extMove, slotMove, slotMove, runIdx_slot pf l p c s m t N' (by omega) keys]

/-- One step of all slots, with everything variable. -/
theorem measurable_slotMove_joint {S Ω : Type} [Fintype S] [MeasurableSpace S] [MeasurableSingletonClass S] [MeasurableSpace Ω]
    [NeZero N] (h : IdealRng rng P)
    (pf : Platform) {l : Ω → Fin N → Fl} (hl : Measurable l) {p : Ω → Fin n → Fin N → Fl} (hp : Measurable p)
    (g : Fin N → S) {c : Ω → Fin n → Fl} (hc : Measurable c) {kp ka : Ω → K} (hkp : Measurable kp) (hka : Measurable ka)
    {a : Ω → Fin n → S} (ha : Measurable a) :
    Measurable fun ω => slotMove rng pf (l ω) (p ω) g (c ω) (kp ω) (ka ω) (a ω) := by
  refine measurable_pi_iff.mpr fun m => ?_
  have h1 : Measurable fun ω => multinomialIdx rng pf (l ω) n (kp ω) m :=
    (measurable_pi_apply m).comp ((measurable_multinomialIdx h pf).comp (hkp.prodMk hl))
  have h2 : ∀ i, Measurable fun ω => accepts (p ω m i) (c ω m) (rng.uniform (ka ω) n m) := fun i => by
    have h3 : Measurable fun ω => rng.uniform (ka ω) n m :=
      (measurable_pi_apply m).comp ((h.uniform n).measurable.comp hka)
    have h4 : Measurable fun ω => Fl.log (Fl.fin (rng.uniform (ka ω) n m)) :=
      Fl.measurable_log.comp (Fl.measurable_fin.comp h3)
    have h5 : Measurable fun ω => p ω m i := (measurable_pi_apply i).comp ((measurable_pi_apply m).comp hp)
    have h6 : Measurable fun ω => c ω m := (measurable_pi_apply m).comp hc
    exact Fl.measurable_ltb.comp (h4.prodMk (h5.fl_sub h6))
  have h3 : Measurable fun ω => ((multinomialIdx rng pf (l ω) n (kp ω) m,
      (fun i => accepts (p ω m i) (c ω m) (rng.uniform (ka ω) n m)), a ω m) : Fin N × (Fin N → Bool) × S) :=
    h1.prodMk ((measurable_pi_iff.mpr h2).prodMk ((measurable_pi_apply m).comp ha))
  have h4 : Measurable fun q : Fin N × (Fin N → Bool) × S => if q.2.1 q.1 then g q.1 else q.2.2 :=
    measurable_of_finite _
  exact h4.comp h3

theorem measurable_runIdx_joint {Ω : Type} [MeasurableSpace Ω] [NeZero N] (h : IdealRng rng P) (pf : Platform)
    {l : Ω → Fin N → Fl} (hl : Measurable l) {p : Ω → Fin n → Fin N → Fl} (hp : Measurable p)
    {c : Ω → Fin n → Fl} (hc : Measurable c) (s : Fin n → Fin N × Bool) (N' : ℕ) {keys : Ω → Fin N' → K}
    (hk : Measurable keys) : ∀ (t : ℕ) (ht : t * 2 ≤ N'),
    Measurable fun ω => runIdx (extMove rng pf (l ω) (p ω) (c ω)) s t N' ht (keys ω)
  | 0, _ => measurable_const
  | t + 1, ht => by
    have ih := measurable_runIdx_joint h pf hl hp hc s N' hk t (by omega)
    have hk1 : Measurable fun ω => keys ω ⟨t * 2, by omega⟩ := (measurable_pi_apply _).comp hk
    have hk2 : Measurable fun ω => keys ω ⟨t * 2 + 1, by omega⟩ := (measurable_pi_apply _).comp hk
    refine measurable_slotMove_joint h pf hl hp (fun i => (i, false)) (c := fun ω m => carried (p ω m) (c ω m)
      (runIdx (extMove rng pf (l ω) (p ω) (c ω)) s t N' (by omega) (keys ω) m)) ?_ hk1 hk2 ih
    refine measurable_pi_iff.mpr fun m => ?_
    have h1 : Measurable fun q : ((Fin N → Fl) × Fl) × (Fin N × Bool) => carried q.1.1 q.1.2 q.2 := by
      refine measurable_from_prod_countable_left fun s => ?_
      obtain ⟨i, b⟩ := s
      cases b
      · exact (measurable_pi_apply i).comp measurable_fst
      · exact measurable_snd
    have h2 : Measurable fun ω => ((p ω m, c ω m), runIdx (extMove rng pf (l ω) (p ω) (c ω)) s t N' (by omega) (keys ω) m) :=
      (((measurable_pi_apply m).comp hp).prodMk ((measurable_pi_apply m).comp hc)).prodMk
        ((measurable_pi_apply m).comp ih)
    exact h1.comp h2

omit [MeasurableSpace K] [MeasurableSpace X] in
/-- The marginal of one of several independent choices. -/
theorem sum_prod_marginal {S : Type} [Fintype S] {q : Fin n → S → ℝ≥0∞} (hq : ∀ m, ∑ s, q m s = 1) (m : Fin n)
    (G : S → ℝ≥0∞) : ∑ a : Fin n → S, (∏ m', q m' (a m')) * G (a m) = ∑ s, q m s * G s := by
  classical
  have h5 := Finset.prod_univ_sum (fun _ : Fin n => (Finset.univ : Finset S))
    (fun m' s => q m' s * if m' = m then G s else 1)
  rw [Fintype.piFinset_univ] at h5
  refine Eq.trans (Finset.sum_congr rfl fun a _ => ?_) (h5.symm.trans ?_)
  · rw [Finset.prod_mul_distrib]
    congr 1
    rw [Finset.prod_ite_eq' Finset.univ m fun m' => G (a m')]
    simp
  · rw [Finset.prod_eq_single m]
    · simp
    · intro m' _ hm'
      simp [hm', hq]
    · simp

/-- MCMC backward sampling with a symmetric log density. -/
theorem invariantSampler_mcmc [NeZero N] (h : IdealRng rng P) (pf : Platform) (nSteps : ℕ) {ld : X → X → Fl}
    (hld : ∀ x x', (ld x x').IsLog) (hm : Measurable fun q : X × X => ld q.1 q.2) (hsym : ∀ x x', ld x x' = ld x' x) :
    InvariantSampler P n ld (mcmcIdx rng pf nSteps : BackIdx K X N) := by
  have := h.prob
  have hslot : ∀ k x0 (x1 : Fin n → X) l a m, mcmcIdx (N := N) rng pf nSteps k x0 n x1 l ld a m =
      mcmcIdx rng pf nSteps k x0 n (fun _ => x1 m) l ld (fun _ => a m) m := by
    intro k x0 x1 l a m
    rw [mcmcIdx, mcmcIdx, runIdx_slot]
  have hmeas : ∀ (c : Core X N) x' (i : Fin N) (m : Fin n) j, MeasurableSet {k | mcmcIdx rng pf nSteps k c.1 n
      (fun _ => x') c.2.1 ld (fun _ => i) m = j} := by
    intro c x' i m j
    have h1 : Measurable fun k => mcmcIdx rng pf nSteps k c.1 n (fun _ => x') c.2.1 ld (fun _ => i) :=
      measurable_to_countable' fun b => measurableSet_mcmcIdx h pf nSteps c.1 (fun _ : Fin n => x') c.2.1 ld (fun _ => i) b
    exact ((measurable_pi_apply m).comp h1) (measurableSet_singleton j)
  refine ⟨hslot, fun i m => ?_, fun m m' c hc x' i j => ?_, fun m c hc x' j => ?_⟩
  · have hx0 : Measurable fun q : K × Core X N × X => q.2.1.1 := measurable_fst.comp (measurable_fst.comp measurable_snd)
    have hx1 : Measurable fun q : K × Core X N × X => q.2.2 := measurable_snd.comp measurable_snd
    have h1 : Measurable fun q : K × Core X N × X => q.2.1.2.1 :=
      measurable_fst.comp (measurable_snd.comp (measurable_fst.comp measurable_snd))
    have h2 : Measurable fun q : K × Core X N × X => fun (_ : Fin n) i => ld (q.2.1.1 i) q.2.2 :=
      measurable_pi_iff.mpr fun _ => measurable_pi_iff.mpr fun i => hm.comp (((measurable_pi_apply i).comp hx0).prodMk hx1)
    have h3 : Measurable fun q : K × Core X N × X => fun (_ : Fin n) => ld q.2.2 (q.2.1.1 i) :=
      measurable_pi_iff.mpr fun _ => hm.comp (hx1.prodMk ((measurable_pi_apply i).comp hx0))
    have h4 : Measurable fun q : K × Core X N × X => rng.nth (rng.nth q.1 2 0) (nSteps * 2) :=
      (h.split (nSteps * 2)).measurable.comp ((h.measurable_nth 2 0).comp measurable_fst)
    have h5 := measurable_runIdx_joint (n := n) h pf h1 h2 h3 (fun _ => (i, true)) (nSteps * 2) h4 nSteps le_rfl
    exact measurable_fst.comp ((measurable_pi_apply m).comp h5)
  · -- the law of one slot does not depend on the slot
    obtain ⟨q, hq⟩ : ∃ q : Fin N × Bool → ℝ≥0∞, q = fun s => ENNReal.ofReal (chainLaw (slotKernel (nw c.2.1)
      (fun i => ld (c.1 i) x') (ld x' (c.1 i))) (fun s' => if (i, true) = s' then 1 else 0) nSteps s) := ⟨_, rfl⟩
    have hq1 : ∑ s, q s = 1 := by
      have h1 : ∀ s', ∑ b, slotKernel (nw c.2.1) (fun i => ld (c.1 i) x') (ld x' (c.1 i)) s' b = 1 := fun s' =>
        jumpProb_sum (nw_sum hc) s'
      rw [hq, ← ENNReal.ofReal_sum_of_nonneg fun s _ => chainLaw_nonneg (slotKernel_nonneg (nw_nonneg _) _ _)
        (fun _ => by split_ifs <;> norm_num) _ _, chainLaw_sum h1 (by simp), ENNReal.ofReal_one]
    have hlaw : ∀ m : Fin n, P {k | mcmcIdx rng pf nSteps k c.1 n (fun _ => x') c.2.1 ld (fun _ => i) m = j} =
        ∑ s, q s * if s.1 = j then 1 else 0 := by
      intro m
      obtain ⟨R, hR⟩ : ∃ R : (Fin (nSteps * 2) → K) → Fin n → Fin N × Bool,
        R = fun keys => runIdx (extMove rng pf c.2.1 (fun (_ : Fin n) i => ld (c.1 i) x') fun _ => ld x' (c.1 i))
          (fun _ => (i, true)) nSteps (nSteps * 2) le_rfl keys := ⟨_, rfl⟩
      have hRm : Measurable R := by
        have hst : ∀ s, Measurable fun q : K × K => extMove rng pf c.2.1 (fun (_ : Fin n) i => ld (c.1 i) x')
            (fun _ => ld x' (c.1 i)) q.1 q.2 s := fun s => measurable_slotMove h pf c.2.1 _ _ _ s
        rw [hR]
        exact measurable_runIdx hst _ (nSteps * 2) nSteps le_rfl
      have hS : MeasurableSet {keys | (R keys m).1 = j} :=
        (measurable_fst.comp ((measurable_pi_apply m).comp hRm)) (measurableSet_singleton j)
      have h1 : P {k | mcmcIdx rng pf nSteps k c.1 n (fun _ => x') c.2.1 ld (fun _ => i) m = j} =
          (Measure.pi fun _ => P) {keys : Fin (nSteps * 2) → K | (R keys m).1 = j} := by
        have h2 := (h.split (nSteps * 2)).measure_preimage hS.nullMeasurableSet
        rw [← h2, ← (h.measurePreserving_nth 2 0).measure_preimage
          (hS.preimage (h.split (nSteps * 2)).measurable).nullMeasurableSet, hR]
        rfl
      rw [h1, ← lintegral_indicator_one hS]
      have h2 := lintegral_ext h pf hc (fun (_ : Fin n) i => ld (c.1 i) x') (fun _ => ld x' (c.1 i))
        (fun _ => (i, true)) nSteps fun e => if (e m).1 = j then 1 else 0
      have h3 := sum_prod_marginal (n := n) (q := fun _ => q) (fun _ => hq1) m fun s => if s.1 = j then 1 else 0
      rw [← h3, hq]
      refine Eq.trans (lintegral_congr fun keys => ?_) h2
      rw [indicator_apply, hR]
      rfl
    rw [hlaw, hlaw]
  · -- invariance
    by_cases hs : ∃ i, (c.2.1 i).IsFin ∧ (ld (c.1 i) x').IsFin
    · have hcs : CanSample c.1 c.2.1 ld x' := ⟨hc.1, fun i => hld _ _, hs⟩
      obtain ⟨J, hJ1, hJ2⟩ := mcmc_invariant_partial (n := n) h pf (x1 := fun _ => x') hc (fun _ => hcs) nSteps
        fun _ i => hsym _ _
      have hJ : ∀ k a, J k a = mcmcIdx rng pf nSteps k c.1 n (fun _ => x') c.2.1 ld a := by
        intro k a
        have h1 := (hJ1 k a).symm.trans (samplesBy_mcmc rng pf nSteps k c.1 n (fun _ => x') c.2.1 ld a)
        exact (Prod.mk.inj (Except.ok.inj h1)).2
      obtain ⟨b, hb⟩ : ∃ b : Fin N → ℝ≥0∞, b = fun i => ENNReal.ofReal (backwardProb c.1 c.2.1 ld x' i) := ⟨_, rfl⟩
      obtain ⟨Z, hZ⟩ : ∃ Z, Z = ∑ i, nw c.2.1 i * (ld (c.1 i) x').lik := ⟨_, rfl⟩
      have hZ0 : 0 < Z := by
        obtain ⟨i, hi, hi'⟩ := hs
        rw [hZ]
        refine Finset.sum_pos' (fun i _ => mul_nonneg (nw_nonneg _ _) (Fl.lik_nonneg _)) ⟨i, Finset.mem_univ i, ?_⟩
        exact mul_pos (div_pos (Fl.lik_pos hi) (sum_lik_pos hc)) (Fl.lik_pos hi')
      have hbZ : ∀ i, ENNReal.ofReal (nw c.2.1 i) * ENNReal.ofReal (ld (c.1 i) x').lik = ENNReal.ofReal Z * b i := by
        intro i
        rw [← ENNReal.ofReal_mul (nw_nonneg _ _), hb, ← ENNReal.ofReal_mul hZ0.le, backwardProb_nw hc ld x' i, ← hZ]
        congr 1
        field_simp
      have hb1 : ∑ i, b i = 1 := by
        rw [hb, ← ENNReal.ofReal_sum_of_nonneg fun i _ => backwardProb_nonneg _ _ _ _ _]
        simp only [backwardProb_nw hc ld x', ← hZ]
        rw [← Finset.sum_div, ← hZ, div_self hZ0.ne', ENNReal.ofReal_one]
      have key : ∑ i, b i * P {k | mcmcIdx rng pf nSteps k c.1 n (fun _ => x') c.2.1 ld (fun _ => i) m = j} = b j := by
        rw [← sum_prod_marginal (n := n) (q := fun _ => b) (fun _ => hb1) m]
        have h1 : ∀ a : Fin n → Fin N, P {k | mcmcIdx rng pf nSteps k c.1 n (fun _ => x') c.2.1 ld (fun _ => a m) m = j} =
            ∑ e : Fin n → Fin N, P {k | J k a = e} * if e m = j then 1 else 0 := by
          intro a
          have h2 : {k | mcmcIdx rng pf nSteps k c.1 n (fun _ => x') c.2.1 ld (fun _ => a m) m = j} =
              {k | mcmcIdx rng pf nSteps k c.1 n (fun _ => x') c.2.1 ld a m = j} := by
            ext k
            rw [mem_ofPred_eq, mem_ofPred_eq, hslot k c.1 (fun _ => x') c.2.1 a m]
          have h3 : Measurable fun k => mcmcIdx rng pf nSteps k c.1 n (fun _ => x') c.2.1 ld a :=
            measurable_to_countable' fun b => measurableSet_mcmcIdx h pf nSteps c.1 (fun _ : Fin n => x') c.2.1 ld a b
          have h4 : MeasurableSet {k | mcmcIdx rng pf nSteps k c.1 n (fun _ => x') c.2.1 ld a m = j} :=
            ((measurable_pi_apply m).comp h3) (measurableSet_singleton j)
          rw [h2, ← lintegral_indicator_one h4]
          have h5 : ∀ k, {k | mcmcIdx rng pf nSteps k c.1 n (fun _ => x') c.2.1 ld a m = j}.indicator (1 : K → ℝ≥0∞) k =
              ∑ e : Fin n → Fin N, {k | J k a = e}.indicator (1 : K → ℝ≥0∞) k * if e m = j then 1 else 0 := by
            intro k
            rw [Finset.sum_eq_single (J k a)]
            · simp [indicator_apply, hJ]
            · intro e _ he
              simp [he.symm]
            · simp
          have h6 : ∀ e, MeasurableSet {k | J k a = e} := fun e => by
            simp only [hJ]
            exact measurableSet_mcmcIdx h pf nSteps c.1 (fun _ : Fin n => x') c.2.1 ld a e
          simp only [h5]
          have h7 : ∀ e : Fin n → Fin N, Measurable fun k => {k | J k a = e}.indicator (1 : K → ℝ≥0∞) k * if e m = j then 1 else 0 :=
            fun e => (measurable_one.indicator (h6 e)).mul_const _
          rw [lintegral_finsetSum' _ fun e _ => (h7 e).aemeasurable]
          refine Finset.sum_congr rfl fun e _ => ?_
          rw [lintegral_mul_const _ (measurable_one.indicator (h6 e)), lintegral_indicator_one (h6 e)]
        simp only [h1, Finset.mul_sum]
        rw [Finset.sum_comm]
        simp only [← mul_assoc, ← Finset.sum_mul]
        have h2 : ∀ e, ∑ a : Fin n → Fin N, (∏ m', b (a m')) * P {k | J k a = e} = ∏ m', b (e m') := by
          intro e
          rw [hb]
          exact hJ2 e
        simp only [h2]
        rw [sum_prod_marginal (n := n) (q := fun _ => b) (fun _ => hb1) m fun i => if i = j then 1 else 0]
        simp
      simp only [hbZ, mul_assoc]
      rw [← Finset.mul_sum, key]
    · have h1 : ∀ i, ENNReal.ofReal (nw c.2.1 i) * ENNReal.ofReal (ld (c.1 i) x').lik = 0 := by
        intro i
        push Not at hs
        rcases (hc.1 i).cases with h2 | h2
        · rw [nw, h2]
          simp [Fl.lik]
        · rcases (hld (c.1 i) x').cases with h3 | h3
          · rw [h3]
            simp [Fl.lik]
          · exact absurd h3 (hs i h2)
      simp [h1]

end samplers

/-! ## C125 -/

section main

variable [MeasurableSpace K] [MeasurableSpace X] {P : Measure K} {rng : Rng K} {mdl : FKModel K X Inp}

/-- C125: run a particle filter with any of the three resampling functions and then, with an independent key, the
smoother with MCMC backward sampling. If, for all inputs, the exponential of the log potential of the smoother is the
density of the weighted transitions of the filter (up to factors that depend on the later state only) and exchanging
the two states makes no difference to the log potential, then the evidence estimate times the average of any function
of the smoothed paths is an unbiased estimate of the unnormalised Feynman-Kac expectation of that function, for every
number of MCMC steps, even zero. Missing: for log potentials that are not symmetric MCMC backward sampling does not
leave the backward distributions invariant, see `mcmc_not_invariant`; for generators such as JAX's default one
(`PrefixSplit`) and for log potentials that depend on the inputs the smoother with exact backward sampling, which is
its limit, is biased, see `exact_smoother_biased` and `smoother_uses_wrong_inputs`. -/
theorem mcmc_smoother_unbiased_partial [NeZero N] [NeZero n] (h : IdealRng rng P)
    (hind : IndepSplit rng.toPrng P) {pf : Platform} {R' : Resampler K N X}
    (hR' : R' = multinomial rng pf ∨ R' = systematic rng pf ∨ R' = killing rng pf) {u0 u : Inp} {us : List Inp}
    (h0 : Measurable fun k => mdl.initSample k u0) (hu : ∀ v ∈ u :: us, mdl.Regular v) (dummy : X)
    {R : Resampler K N X} (hR : R = multinomial rng pf ∨ R = systematic rng pf ∨ n = N ∧ R = killing rng pf)
    (inputsOf : Except Err (PFState K X Inp N) → Inp) (dummyInp : Inp → Except Err Inp)
    {logPotential : X → X → Inp → Fl}
    (hlp : ∀ v ∈ u :: us, ∀ w, BackwardDensity (mdl.step P v) fun x x' => logPotential x x' w)
    (hsym : ∀ x x' w, logPotential x x' w = logPotential x' x w)
    {d d' : Inp} (hdd : dummyInp u = .ok d) (hdd' : dummyInp d = .ok d') (nSteps : ℕ) :
    ∃ (S : K → ℕ → PFState K X Inp N) (p : K → K → Fin n → ℕ → X),
      (∀ k, filter rng.toPrng (particleFilter rng.toPrng mdl dummy N R') (u0 :: u :: us) false (some k) =
        ⟨false, .ok ((List.range (us.length + 2)).map fun t => .ok (S k t))⟩) ∧
      (∀ k k', SmootherReturns rng.toPrng inputsOf dummyInp
        (particleSmoother rng.toPrng dummyInp logPotential (mcmc rng pf nSteps) R n) (S k) (u :: us) k' (p k k')) ∧
      ∀ f : (ℕ → X) → ℝ≥0∞, Measurable f →
        ∫⁻ k, ∫⁻ k', ENNReal.ofReal (S k (us.length + 1)).logZ.lik * ((∑ m, f (p k k' m)) / n) ∂P ∂P =
          fkExp (mdl.init P u0) ((u :: us).map (mdl.step P)) f := by
  have hB : ∀ w, InvariantSampler P n (fun x x' => logPotential x x' w) (mcmcIdx rng pf nSteps : BackIdx K X N) :=
    fun w => invariantSampler_mcmc h pf nSteps (hlp u (by simp) w).isLog (hlp u (by simp) w).measurable
      fun x x' => hsym x x' w
  have hS : SamplesBy (X := X) (N := N) (mcmc rng pf nSteps) (mcmcIdx rng pf nSteps) := samplesBy_mcmc rng pf nSteps
  rcases hR' with rfl | rfl | rfl
  · exact invariant_smoother_unbiased h hind (uses_multinomial rng pf) (unbiasedWeights_multinomial h pf) h0 hu
      (.inl revivesDead_zero) dummy hS hR inputsOf dummyInp hlp hB hdd hdd'
  · exact invariant_smoother_unbiased h hind (uses_systematic rng pf) (unbiasedWeights_systematic h pf) h0 hu
      (.inl revivesDead_zero) dummy hS hR inputsOf dummyInp hlp hB hdd hdd'
  · exact invariant_smoother_unbiased h hind (uses_killing rng pf) (unbiasedWeights_killing h pf) h0 hu
      (.inl revivesDead_zero) dummy hS hR inputsOf dummyInp hlp hB hdd hdd'

end main

/-- A random walk with symmetric moves, whose states below the input are impossible. -/
def symmetricWalk (rng : Rng K) : FKModel K ℝ ℝ where
  initSample k _ := rng.uniform0 k
  propagate k x _ := x - 1 / 2 + rng.uniform0 k
  logPotential _ x' u := if x' < u then Fl.ninf else Fl.fin (-(x' - u) ^ 2)

section example_

variable [MeasurableSpace K] {P : Measure K} {rng : Rng K} (h : IdealRng rng P)

include h

theorem symmetricWalk_regular (u : ℝ) : (symmetricWalk rng).Regular u where
  propagate := (measurable_snd.sub_const _).add (h.uniform0.measurable.comp measurable_fst)
  logPotential := by
    refine Measurable.ite (measurableSet_lt measurable_snd measurable_const) measurable_const ?_
    exact Fl.measurable_fin.comp ((measurable_snd.sub_const u).pow_const 2).neg
  isLog x x' := by
    simp only [symmetricWalk]
    split_ifs <;> trivial

theorem symmetricWalk_density (v : ℝ) : BackwardDensity ((symmetricWalk rng).step P v)
    fun x x' => if |x - x'| ≤ 1 / 2 then Fl.fin 0 else Fl.ninf where
  isLog x x' := by split_ifs <;> trivial
  measurable := by
    refine Measurable.ite ?_ measurable_const measurable_const
    exact measurableSet_le (measurable_fst.sub measurable_snd).abs measurable_const
  density := by
    have hq : Measurable fun x' : ℝ => if x' < v then Fl.ninf else Fl.fin (-(x' - v) ^ 2) :=
      Measurable.ite (measurableSet_lt measurable_id measurable_const) measurable_const
        (Fl.measurable_fin.comp ((measurable_id.sub_const v).pow_const 2).neg)
    have hqm : Measurable fun x' : ℝ =>
        ENNReal.ofReal (if x' < v then Fl.ninf else Fl.fin (-(x' - v) ^ 2)).lik :=
      ENNReal.measurable_ofReal.comp (Fl.measurable_lik.comp hq)
    refine ⟨volume.withDensity fun x' => ENNReal.ofReal (if x' < v then Fl.ninf else Fl.fin (-(x' - v) ^ 2)).lik,
      fun x => ?_⟩
    have h1 : ((symmetricWalk rng).step P v).kernel x = volume.restrict (Icc (x - 1 / 2) (x + 1 / 2)) := by
      change P.map (fun k => x - 1 / 2 + rng.uniform0 k) = _
      have h2 : P.map (fun k => x - 1 / 2 + rng.uniform0 k) = (P.map rng.uniform0).map fun y => x - 1 / 2 + y :=
        (Measure.map_map (measurable_const_add _) h.uniform0.measurable).symm
      rw [h2, h.uniform0.map_eq, unif]
      have h3 : Ico (0 : ℝ) 1 = (fun y => x - 1 / 2 + y) ⁻¹' Ico (x - 1 / 2) (x + 1 / 2) := by
        ext y
        simp only [mem_Ico, mem_preimage]
        constructor <;> rintro ⟨h4, h5⟩ <;> constructor <;> linarith
      rw [h3, ← Measure.restrict_map (measurable_const_add _) measurableSet_Ico, map_add_left_eq_self]
      exact Measure.restrict_congr_set Ico_ae_eq_Icc
    have h4 : Measurable fun x' : ℝ => ENNReal.ofReal (if |x - x'| ≤ 1 / 2 then Fl.fin 0 else Fl.ninf).lik := by
      refine ENNReal.measurable_ofReal.comp (Fl.measurable_lik.comp ?_)
      refine Measurable.ite ?_ measurable_const measurable_const
      exact measurableSet_le (measurable_const.sub measurable_id).abs measurable_const
    rw [h1, ← withDensity_indicator measurableSet_Icc, ← withDensity_mul _ hqm h4]
    congr 1
    funext x'
    have h6 : x' ∈ Icc (x - 1 / 2) (x + 1 / 2) ↔ |x - x'| ≤ 1 / 2 := by
      rw [mem_Icc, abs_le]
      constructor <;> rintro ⟨h4, h5⟩ <;> constructor <;> linarith
    simp only [indicator_apply, h6, Pi.mul_apply, FKModel.step, symmetricWalk]
    by_cases h5 : |x - x'| ≤ 1 / 2
    · rw [if_pos h5, if_pos h5]
      simp [Fl.lik]
    · rw [if_neg h5, if_neg h5]
      simp [Fl.lik]

end example_

/-- The hypotheses of C125: 5 filter and 7 smoother particles, 3 MCMC steps, and a random walk whose states below
the inputs are impossible. -/
example : ∃ rng : Rng Key, ∃ (S : Key → ℕ → PFState Key ℝ ℝ 5) (p : Key → Key → Fin 7 → ℕ → ℝ),
    (∀ k k', SmootherReturns rng.toPrng (fun _ => 0) (fun _ => .ok 0)
      (particleSmoother rng.toPrng (fun _ => .ok 0)
        (fun x x' _ => if |x - x'| ≤ 1 / 2 then Fl.fin 0 else Fl.ninf) (mcmc rng .cpu 3)
        (systematic rng .cpu) 7) (S k) [1, 2] k' (p k k')) ∧
    ∫⁻ k, ∫⁻ k', ENNReal.ofReal (S k 2).logZ.lik * ((∑ m, ENNReal.ofReal (p k k' m 0)) / (7 : ℕ)) ∂keyLaw ∂keyLaw =
      fkExp ((symmetricWalk rng).init keyLaw 0) ([1, 2].map ((symmetricWalk rng).step keyLaw)) fun p =>
        ENNReal.ofReal (p 0) := by
  obtain ⟨rng, h1, h2⟩ := exists_ideal_indep
  obtain ⟨S, p, -, h5, h6⟩ := mcmc_smoother_unbiased_partial (N := 5) (n := 7) (mdl := symmetricWalk rng)
    (u0 := 0) (us := [2]) h1 h2 (pf := .cpu) (.inr (.inr rfl)) h1.uniform0.measurable
    (fun v _ => symmetricWalk_regular h1 v) 0 (.inr (.inl rfl)) (fun _ => 0)
    (fun _ => .ok 0) (fun v _ _ => symmetricWalk_density h1 v) (fun x x' _ => by rw [abs_sub_comm]) rfl rfl 3
  exact ⟨rng, S, p, h5, h6 _ (ENNReal.measurable_ofReal.comp (measurable_pi_apply 0))⟩

end

end Cuthbert.SMC
