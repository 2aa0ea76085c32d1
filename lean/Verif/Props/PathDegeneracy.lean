import Verif.Lemmas.SMCConsistency
import Verif.Props.ParticleSmoother
import Mathlib.Algebra.Order.Chebyshev

/-!
# Properties: the paths of the tracing smoother merge (C124)
-/

namespace Cuthbert.SMC
open MeasureTheory Set Resampling Spec Filter Topology
open scoped ENNReal

noncomputable section

attribute [local irreducible] multinomialIdx killingIdx systematicIdx

variable {K X Inp : Type} {N n : ℕ} [MeasurableSpace K] [MeasurableSpace X] {P : Measure K} {rng : Rng K}
  {mdl : FKModel K X Inp} {I : K → (Fin N → Fl) → Fin N → Fin N} {L : K → (Fin N → Fl) → Fin N → Fl}

/-! ## C124 -/

/-- All entries are the same. -/
def AllEq {ι β : Type} (a : ι → β) : Prop := ∀ i j, a i = a j

/-- Once all particles have the same parent, all lineages go through it. -/
theorem lineage_allEq {A : ℕ → Fin N → Fin N} {s : ℕ} (hA : AllEq (A (s + 1))) : ∀ {T : ℕ}, s < T → ∀ r ≤ s,
    AllEq fun i => lineage A T i r
  | 0, h, _, _ => absurd h (Nat.not_lt_zero _)
  | T + 1, h, r, hr => by
    intro i j
    simp only [lineage, if_pos (show r ≤ T by omega)]
    rcases Nat.lt_succ_iff_lt_or_eq.mp h with h1 | rfl
    · exact lineage_allEq hA h1 r hr _ _
    · rw [hA i j]

omit [MeasurableSpace K] [MeasurableSpace X] in
/-- No resampling step of the run after the first `r` steps gives all particles the same parent. -/
def missed (rng : Prng K) (mdl : FKModel K X Inp) (I : K → (Fin N → Fl) → Fin N → Fin N)
    (L : K → (Fin N → Fl) → Fin N → Fl) : ℕ → (us : List Inp) → K → Core X N → (Fin us.length → K) → Prop
  | _, [], _, _, _ => True
  | 0, u :: us, k, c, keys => ¬ AllEq (I (rng.nth k (N + 1) 0) c.2.1) ∧
      missed rng mdl I L 0 us (keys 0) (coreStep mdl I L u (rng.nth k (N + 1)) c) (Fin.tail keys)
  | r + 1, u :: us, k, c, keys =>
      missed rng mdl I L r us (keys 0) (coreStep mdl I L u (rng.nth k (N + 1)) c) (Fin.tail keys)

omit [MeasurableSpace K] [MeasurableSpace X] in
theorem missed_of (rng : Prng K) : ∀ (r : ℕ) (us : List Inp) (s : PFState K X Inp N) (keys : Fin us.length → K),
    (∀ t, r ≤ t → t < us.length → ¬ AllEq (pfAt rng mdl I L us (t + 1) s keys).ancestors) →
    missed rng mdl I L r us s.key s.core keys
  | _, [], _, _, _ => by simp [missed]
  | 0, u :: us, s, keys, h => by
    refine ⟨?_, missed_of rng 0 us (stepTo rng mdl I L s u (keys 0)) (Fin.tail keys) fun t _ ht =>
      h (t + 1) (Nat.zero_le _) (by simpa using ht)⟩
    have h3 := h 0 le_rfl (by simp)
    rw [show pfAt rng mdl I L (u :: us) (0 + 1) s keys = pfAt rng mdl I L us 0 (stepTo rng mdl I L s u (keys 0))
        (Fin.tail keys) from rfl, pfAt_zero] at h3
    exact h3
  | r + 1, u :: us, s, keys, h =>
    missed_of rng r us (stepTo rng mdl I L s u (keys 0)) (Fin.tail keys) fun t hr ht =>
      h (t + 1) (by omega) (by simpa using ht)

theorem measurableSet_missed (h : IdealRng rng P) (hR : UnbiasedWeights P I L) : ∀ (r : ℕ) (us : List Inp),
    (∀ u ∈ us, mdl.Regular u) → MeasurableSet {q : K × Core X N × (Fin us.length → K) |
      missed rng.toPrng mdl I L r us q.1 q.2.1 q.2.2}
  | _, [], _ => by simp [missed]
  | r, u :: us, hu => by
    have ih := fun r => measurableSet_missed h hR r us fun u' h' => hu u' (by simp [h'])
    have h1 : Measurable fun q : K × Core X N × (Fin (us.length + 1) → K) =>
        coreStep mdl I L u (rng.nth q.1 (N + 1)) q.2.1 :=
      (measurable_coreStep hR (hu u (by simp))).comp (((measurable_nthAll h (N + 1)).comp measurable_fst).prodMk
        (measurable_fst.comp measurable_snd))
    have h2 : Measurable fun q : K × Core X N × (Fin (us.length + 1) → K) => q.2.2 :=
      measurable_snd.comp measurable_snd
    have h3 : Measurable fun q : K × Core X N × (Fin (us.length + 1) → K) => Fin.tail q.2.2 :=
      measurable_pi_iff.mpr fun i => (measurable_pi_apply i.succ).comp h2
    have h4 : Measurable fun q : K × Core X N × (Fin (us.length + 1) → K) => I (rng.nth q.1 (N + 1) 0) q.2.1.2.1 :=
      hR.measurable_idx.comp ((((measurable_pi_apply 0).comp (measurable_nthAll h (N + 1))).comp measurable_fst).prodMk
        (measurable_fst.comp (measurable_snd.comp (measurable_fst.comp measurable_snd))))
    have h5 : MeasurableSet {q : K × Core X N × (Fin (us.length + 1) → K) |
        ¬ AllEq (I (rng.nth q.1 (N + 1) 0) q.2.1.2.1)} :=
      h4 (MeasurableSet.of_discrete (s := {a : Fin N → Fin N | ¬ AllEq a}))
    have h6 := fun r => (((measurable_pi_apply 0).comp h2).prodMk (h1.prodMk h3)) (ih r)
    cases r with
    | zero => exact h5.inter (h6 0)
    | succ r => exact h6 r

/-- The probability that no step after the first `r` gives all particles the same parent. -/
theorem lintegral_missed (h : IdealRng rng P) (hR : UnbiasedWeights P I L) {ρ : ℝ≥0∞}
    (hρ : ∀ l, IsLogits l → P {k | ¬ AllEq (I k l)} ≤ ρ) : ∀ (r : ℕ) (us : List Inp) (c : K → Core X N)
    (l : Fin N → Fl), (∀ u ∈ us, mdl.Regular u) → (∀ u ∈ us, ∀ x x', (mdl.logPotential x x' u).IsFin) →
    (∀ k, (c k).2.1 = l) → IsLogits l →
    ∫⁻ k, ∫⁻ keys, {keys | missed rng.toPrng mdl I L r us k (c k) keys}.indicator 1 keys
      ∂(Measure.pi fun _ => P) ∂P ≤ ρ ^ (us.length - r)
  | r, [], c, _, _, _, _, _ => by
    have := h.prob
    simp [missed]
  | r, u :: us, c, l, hu, hfin, hcl, hl => by
    have := h.prob
    have hu' : ∀ u' ∈ us, mdl.Regular u' := fun u' h' => hu u' (by simp [h'])
    have hM := fun r => measurableSet_missed (mdl := mdl) h hR r us hu'
    obtain ⟨B, hB⟩ : ∃ B : Set K, B = {k | ¬ AllEq (I k l)} := ⟨_, rfl⟩
    have hBm : MeasurableSet B := by
      rw [hB]
      exact (hR.measurable_idx.comp (measurable_id.prodMk (measurable_const (a := l))))
        (MeasurableSet.of_discrete (s := {a : Fin N → Fin N | ¬ AllEq a}))
    have hnext : ∀ k, IsLogits (coreStep mdl I L u (rng.nth k (N + 1)) (c k)).2.1 := by
      intro k
      obtain ⟨h1, j, h2⟩ := hR.isLogits (rng.nth k (N + 1) 0) (c k).2.1 (by rw [hcl k]; exact hl)
      refine ⟨fun m => ((hu u (by simp)).isLog _ _).add (h1 m), j, ?_⟩
      have h3 := hfin u (by simp) ((c k).1 (I (rng.nth k (N + 1) 0) (c k).2.1 j))
        (mdl.propagate (rng.nth k (N + 1) j.succ) ((c k).1 (I (rng.nth k (N + 1) 0) (c k).2.1 j)) u)
      show (_ + L (rng.nth k (N + 1) 0) (c k).2.1 j : Fl).IsFin
      revert h2 h3
      generalize L (rng.nth k (N + 1) 0) (c k).2.1 j = a
      generalize mdl.logPotential _ _ u = b
      intro h2 h3
      cases a <;> cases b <;> first | exact h2.elim | exact h3.elim | trivial
    have hrest : ∀ r k, ∫⁻ keys, {keys : Fin (us.length + 1) → K | missed rng.toPrng mdl I L r us (keys 0)
          (coreStep mdl I L u (rng.nth k (N + 1)) (c k)) (Fin.tail keys)}.indicator 1 keys
        ∂(Measure.pi fun _ : Fin (us.length + 1) => P) ≤ ρ ^ (us.length - r) := by
      intro r k
      have hm : MeasurableSet {keys : Fin (us.length + 1) → K | missed rng.toPrng mdl I L r us (keys 0)
          (coreStep mdl I L u (rng.nth k (N + 1)) (c k)) (Fin.tail keys)} := by
        have h3 : Measurable fun keys : Fin (us.length + 1) → K =>
            (keys 0, coreStep mdl I L u (rng.nth k (N + 1)) (c k), Fin.tail keys) :=
          (measurable_pi_apply 0).prodMk (measurable_const.prodMk
            (measurable_pi_iff.mpr fun i => measurable_pi_apply i.succ))
        exact h3 (hM r)
      have h4 := lintegral_pi_cons P (measurable_one.indicator hm : Measurable ({keys : Fin (us.length + 1) → K |
        missed rng.toPrng mdl I L r us (keys 0) (coreStep mdl I L u (rng.nth k (N + 1)) (c k))
          (Fin.tail keys)}.indicator (1 : (Fin (us.length + 1) → K) → ℝ≥0∞)))
      exact h4.le.trans (lintegral_missed h hR hρ r us (fun _ => coreStep mdl I L u (rng.nth k (N + 1)) (c k)) _ hu'
        (fun u' h' => hfin u' (by simp [h'])) (fun _ => rfl) (hnext k))
    cases r with
    | succ r =>
      refine (lintegral_mono fun k => hrest r k).trans ?_
      simp
    | zero =>
      have hstep : ∀ k, ∫⁻ keys, {keys | missed rng.toPrng mdl I L 0 (u :: us) k (c k) keys}.indicator 1 keys
          ∂(Measure.pi fun _ : Fin (us.length + 1) => P) ≤
          (B.indicator 1 (rng.nth k (N + 1) 0) : ℝ≥0∞) * ρ ^ us.length := by
        intro k
        by_cases hk : rng.nth k (N + 1) 0 ∈ B
        · rw [indicator_of_mem hk, Pi.one_apply, one_mul]
          refine (lintegral_mono fun keys => ?_).trans (hrest 0 k)
          exact indicator_le_indicator_of_subset (fun x hx => hx.2) (fun _ => zero_le) _
        · have h5 : {keys | missed rng.toPrng mdl I L 0 (u :: us) k (c k) keys} = ∅ := by
            ext keys
            simp only [mem_ofPred_eq, mem_empty_iff_false, iff_false]
            intro h6
            have h7 := h6.1
            rw [hcl k] at h7
            exact hk (by rw [hB]; exact h7)
          rw [h5]
          simp
      calc _ ≤ ∫⁻ k, (B.indicator 1 (rng.nth k (N + 1) 0) : ℝ≥0∞) * ρ ^ us.length ∂P := lintegral_mono hstep
        _ = P B * ρ ^ us.length := by
            have hm : Measurable fun k => (B.indicator 1 k : ℝ≥0∞) := measurable_one.indicator hBm
            have hm2 : Measurable fun k => (B.indicator 1 (rng.nth k (N + 1) 0) : ℝ≥0∞) :=
              hm.comp (h.measurePreserving_nth (N + 1) 0).measurable
            rw [lintegral_mul_const _ hm2,
              (h.measurePreserving_nth (N + 1) 0).lintegral_comp hm, lintegral_indicator_one hBm]
        _ ≤ ρ ^ (us.length + 1) := by
            rw [pow_succ']
            refine mul_le_mul_left ?_ _
            rw [hB]
            exact hρ _ hl

omit [MeasurableSpace X] in
/-- With multinomial resampling all particles have the same parent with probability at least `N / N ^ N`. -/
theorem multinomial_allEq [NeZero N] (h : IdealRng rng P) (pf : Platform) (l : Fin N → Fl) (hl : IsLogits l) :
    P {k | ¬ AllEq (multinomialIdx rng pf l N k)} ≤ ENNReal.ofReal (1 - 1 / (N : ℝ) ^ (N - 1)) := by
  classical
  have := h.prob
  have hm : Measurable fun k => multinomialIdx rng pf l N k :=
    (unbiasedWeights_multinomial h pf).measurable_idx.comp (measurable_id.prodMk (measurable_const (a := l)))
  have hS : MeasurableSet {k | AllEq (multinomialIdx rng pf l N k)} :=
    hm (MeasurableSet.of_discrete (s := {a : Fin N → Fin N | AllEq a}))
  have h1 : ENNReal.ofReal (1 / (N : ℝ) ^ (N - 1)) ≤ P {k | AllEq (multinomialIdx rng pf l N k)} := by
    have h2 := multinomialIdx_law h pf hl (n := N) fun a => if AllEq a then 1 else 0
    have h3 : (fun k => if AllEq (multinomialIdx rng pf l N k) then (1 : ℝ≥0∞) else 0) =
        {k | AllEq (multinomialIdx rng pf l N k)}.indicator 1 := by
      funext k
      simp [indicator_apply]
    rw [h3, lintegral_indicator_one hS] at h2
    rw [h2]
    have h4 : ∑ i : Fin N, ENNReal.ofReal (nw l i ^ N) ≤
        ∑ a : Fin N → Fin N, (∏ m, ENNReal.ofReal (nw l (a m))) * if AllEq a then 1 else 0 := by
      have hinj : Function.Injective fun (i : Fin N) (_ : Fin N) => i := fun i j hij => congrFun hij 0
      have h5 := Finset.sum_map Finset.univ ⟨_, hinj⟩
        fun a : Fin N → Fin N => (∏ m, ENNReal.ofReal (nw l (a m))) * if AllEq a then 1 else 0
      refine le_trans (le_of_eq ?_) (h5.symm.le.trans (Finset.sum_le_sum_of_subset (Finset.subset_univ _)))
      refine Finset.sum_congr rfl fun i _ => ?_
      have h6 : AllEq fun _ : Fin N => i := fun _ _ => rfl
      simp only [Function.Embedding.coeFn_mk, if_pos h6, mul_one, Finset.prod_const, Finset.card_univ,
        Fintype.card_fin, ENNReal.ofReal_pow (nw_nonneg l i)]
    refine le_trans ?_ h4
    rw [← ENNReal.ofReal_sum_of_nonneg fun i _ => pow_nonneg (nw_nonneg l i) N]
    refine ENNReal.ofReal_le_ofReal ?_
    have h7 := pow_sum_div_card_le_sum_pow (s := Finset.univ) (f := nw l) (fun i _ => nw_nonneg l i) (N - 1)
    rw [nw_sum hl, one_pow, Finset.card_univ, Fintype.card_fin, Nat.sub_add_cancel (NeZero.pos N)] at h7
    exact h7
  have h8 : {k | ¬ AllEq (multinomialIdx rng pf l N k)} = {k | AllEq (multinomialIdx rng pf l N k)}ᶜ := rfl
  rw [h8, prob_compl_eq_one_sub hS, ENNReal.ofReal_sub _ (by positivity), ENNReal.ofReal_one]
  exact tsub_le_tsub_left h1 1

/-- The probability that, `T - r` steps after time `r`, not all particles descend from one particle at time `r`. -/
theorem lineages_merge [NeZero N] (h : IdealRng rng P) (pf : Platform) {u0 : Inp}
    (h0 : Measurable fun k => mdl.initSample k u0) (us : List Inp) (hu : ∀ u ∈ us, mdl.Regular u)
    (hfin : ∀ u ∈ us, ∀ x x', (mdl.logPotential x x' u).IsFin) (r : ℕ) :
    P {k | ¬ ∀ s ≤ r, AllEq fun i => lineage (fun t => (pfRun rng.toPrng mdl (fun k l => multinomialIdx rng pf l N k)
      zeroLogits u0 us k t).ancestors) us.length i s} ≤
      ENNReal.ofReal ((1 - 1 / (N : ℝ) ^ (N - 1)) ^ (us.length - r)) := by
  have := h.prob
  have hR : UnbiasedWeights P (fun k (l : Fin N → Fl) => multinomialIdx rng pf l N k) zeroLogits :=
    unbiasedWeights_multinomial h pf
  have h1 := lintegral_missed (mdl := mdl) h hR (multinomial_allEq h pf) r us
    (fun k => coreInit mdl u0 (rng.nth k N)) _ hu hfin (fun _ => rfl) isLogits_zero
  have hm : MeasurableSet {keys : Fin (us.length + 1) → K | missed rng.toPrng mdl
      (fun k l => multinomialIdx rng pf l N k) zeroLogits r us (keys 0) (coreInit mdl u0 (rng.nth (keys 0) N))
        (Fin.tail keys)} := by
    have h2 : Measurable fun keys : Fin (us.length + 1) → K => Fin.tail keys :=
      measurable_pi_iff.mpr fun i => measurable_pi_apply i.succ
    have h3 : Measurable fun keys : Fin (us.length + 1) → K =>
        (coreInit mdl u0 (rng.nth (keys 0) N) : Core X N) :=
      (measurable_coreInit h0).comp ((measurable_nthAll h N).comp (measurable_pi_apply 0))
    exact ((measurable_pi_apply 0).prodMk (h3.prodMk h2)) (measurableSet_missed h hR r us hu)
  have h4 := lintegral_pi_cons P (measurable_one.indicator hm : Measurable ({keys : Fin (us.length + 1) → K |
    missed rng.toPrng mdl (fun k l => multinomialIdx rng pf l N k) zeroLogits r us (keys 0)
      (coreInit mdl u0 (rng.nth (keys 0) N)) (Fin.tail keys)}.indicator (1 : (Fin (us.length + 1) → K) → ℝ≥0∞)))
  rw [lintegral_indicator_one hm] at h4
  have h5 := (h.split (us.length + 1)).measure_preimage hm.nullMeasurableSet
  have h9 : (0 : ℝ) ≤ 1 - 1 / (N : ℝ) ^ (N - 1) := by
    have : (1 : ℝ) ≤ (N : ℝ) ^ (N - 1) := one_le_pow₀ (by exact_mod_cast NeZero.pos N)
    rw [sub_nonneg, div_le_one (by positivity)]
    exact this
  rw [ENNReal.ofReal_pow h9]
  refine le_trans (measure_mono fun k hk => ?_) (h5.le.trans (h4.le.trans h1))
  refine missed_of rng.toPrng r us (pfInit rng.toPrng mdl N u0 (rng.nth k (us.length + 1) 0)) _ fun t hrt ht hA => hk ?_
  intro s hs
  exact lineage_allEq (A := fun t => (pfRun rng.toPrng mdl (fun k l => multinomialIdx rng pf l N k)
      zeroLogits u0 us k t).ancestors) hA ht s (hs.trans hrt)

/-- The resampling function returns copies of the particles. -/
def CopiesParticles (R : Resampler K N X) (n : ℕ) : Prop :=
  ∀ k l pos, ∃ r, R k l pos n = .ok r ∧ ∀ m, r.positions m = pos (r.idx m)

/-- C124: the tracing smoother forgets the beginning of a long series. Run on the states of a particle filter with
multinomial resampling and finite potentials, all its trajectories are at the same point at all times up to `r`, except
with a probability that decreases geometrically with the number of steps after `r`. This is for every number of
trajectories, every key of the smoother and every resampling function at the final time. -/
theorem tracing_paths_merge [NeZero N] (h : IdealRng rng P) (pf : Platform) (dummyX : X) {u0 : Inp} (us : List Inp)
    (h0 : Measurable fun k => mdl.initSample k u0) (hu : ∀ u ∈ us, mdl.Regular u)
    (hfin : ∀ u ∈ us, ∀ x x', (mdl.logPotential x x' u).IsFin) (r : ℕ) :
    ∃ bad : Set K, P bad ≤ ENNReal.ofReal ((1 - 1 / (N : ℝ) ^ (N - 1)) ^ (us.length - r)) ∧
      ∀ k ∉ bad, ∃ states, (filter rng.toPrng (particleFilter rng.toPrng mdl dummyX N (multinomial rng pf)) (u0 :: us)
          false (some k)).result = .ok states ∧
        ∀ (inputsOf : Except Err (PFState K X Inp N) → Inp) (dummy : Inp → Except Err Inp) (lp : X → X → Inp → Fl)
          (R : Resampler K N X) (n : ℕ) (v : Inp) (vs : List Inp) (d d' : Inp) (k' : K), CopiesParticles R n →
          dummy v = .ok d → dummy d = .ok d' → vs.length + 1 = us.length →
          ∃ out, (smoother rng.toPrng inputsOf dummy (particleSmoother rng.toPrng dummy lp tracing R n) states
              (some (v :: vs)) false (some k')).result = .ok out ∧ out.length = us.length + 1 ∧
            ∀ t ≤ us.length, ∃ s, out[t]? = some (.ok s) ∧ s.n = n ∧ (t ≤ r →
              ∀ i j, s.particles i = s.particles j) := by
  refine ⟨_, lineages_merge h pf h0 us hu hfin r, fun k hk => ⟨_, by
    rw [filter_pf_eq (uses_multinomial rng pf) dummyX u0 us k], ?_⟩⟩
  intro inputsOf dummy lp R n v vs d d' k' hR hd hd' hlen
  have hk' : ∀ s ≤ r, AllEq fun i => lineage (fun t => (pfRun rng.toPrng mdl (fun k l => multinomialIdx rng pf l N k)
      zeroLogits u0 us k t).ancestors) us.length i s := by
    by_contra h1
    exact hk h1
  obtain ⟨q, hq, hpos⟩ := hR (rng.nth (rng.nth k' (us.length + 1) 0) 2 1)
    (pfRun rng.toPrng mdl (fun k l => multinomialIdx rng pf l N k) zeroLogits u0 us k us.length).logWeights
    (pfRun rng.toPrng mdl (fun k l => multinomialIdx rng pf l N k) zeroLogits u0 us k us.length).particles
  obtain ⟨keys, inputs, weights, h2, -, -⟩ := tracing_smoother_paths rng.toPrng inputsOf dummy lp R n
    (pfRun rng.toPrng mdl (fun k l => multinomialIdx rng pf l N k) zeroLogits u0 us k) v vs k' hd hd' hlen.symm hq hpos
  refine ⟨_, h2, by simp, fun t ht => ⟨_, by
    rw [List.getElem?_map, List.getElem?_range (by omega)]; rfl, rfl, fun htr i j => ?_⟩⟩
  exact congrArg (pfRun rng.toPrng mdl (fun k l => multinomialIdx rng pf l N k) zeroLogits u0 us k
    (min t us.length)).particles (hk' t htr (q.idx i) (q.idx j))

/-- For every number of particles and every tolerance there is a length of the series from which on the bound of C124
is below the tolerance. -/
theorem merge_bound_small [NeZero N] {ε : ℝ} (hε : 0 < ε) :
    ∃ T₀ : ℕ, ∀ T ≥ T₀, (1 - 1 / (N : ℝ) ^ (N - 1)) ^ T < ε := by
  have h1 : (1 : ℝ) ≤ (N : ℝ) ^ (N - 1) := one_le_pow₀ (by exact_mod_cast NeZero.pos N)
  have h2 : (0 : ℝ) ≤ 1 - 1 / (N : ℝ) ^ (N - 1) := by
    rw [sub_nonneg, div_le_one (by positivity)]
    exact h1
  have h3 : 1 - 1 / (N : ℝ) ^ (N - 1) < 1 := by
    have : (0 : ℝ) < 1 / (N : ℝ) ^ (N - 1) := by positivity
    linarith
  have h4 := (tendsto_pow_atTop_nhds_zero_of_lt_one h2 h3).eventually_lt_const hε
  exact eventually_atTop.mp h4

omit [MeasurableSpace X] in
/-- C124, the difference that the resampling function makes: with a resampling function that keeps equally weighted
particles, the lineages never merge when the potential is constant. -/
theorem lineages_distinct [NeZero N] (h : IdealRng rng P) {R : Resampler K N X} (hR : Uses R I zeroLogits)
    (hI : KeepsEqual P I zeroLogits) (dummyX : X) (u0 : Inp) (us : List Inp)
    (hpot : ∀ u ∈ us, ∀ x x', mdl.logPotential x x' u = 0) :
    ∀ᵐ k ∂P, ∃ S : ℕ → PFState K X Inp N, (filter rng.toPrng (particleFilter rng.toPrng mdl dummyX N R) (u0 :: us)
        false (some k)).result = .ok ((List.range (us.length + 1)).map fun t => .ok (S t)) ∧
      ∀ i, ∀ s ≤ us.length, lineage (fun t => (S t).ancestors) us.length i s = i := by
  have h1 : ∀ᵐ k ∂P, ∀ t : Fin (us.length + 1), ∀ m,
      I (rng.nth (rng.nth k (us.length + 1) t) (N + 1) 0) (fun _ => 0) m = m := by
    refine ae_all_iff.mpr fun t => ?_
    have h2 : ∀ᵐ k ∂P, ∀ m, I k (fun _ => 0) m = m := hI.mono fun k hk m => (hk m).1
    exact ((h.measurePreserving_nth (N + 1) 0).comp (h.measurePreserving_nth (us.length + 1) t))
      |>.quasiMeasurePreserving.ae h2
  filter_upwards [h1] with k hk
  refine ⟨pfRun rng.toPrng mdl I zeroLogits u0 us k, by rw [filter_pf_eq hR], ?_⟩
  have h3 : ∀ t ≤ us.length, (pfRun rng.toPrng mdl I zeroLogits u0 us k t).logWeights = fun _ => 0 := by
    intro t ht
    cases t with
    | zero => rw [pfRun_zero]; rfl
    | succ t =>
      rw [pfRun_succ u0 us k t (by omega)]
      funext m
      show mdl.logPotential _ _ us[t] + (0 : Fl) = 0
      rw [hpot _ (List.getElem_mem _), add_zero]
  have h4 : ∀ t < us.length, (pfRun rng.toPrng mdl I zeroLogits u0 us k (t + 1)).ancestors = id := by
    intro t ht
    rw [pfRun_succ u0 us k t ht]
    funext m
    show I (rng.nth (pfRun rng.toPrng mdl I zeroLogits u0 us k t).key (N + 1) 0) _ m = m
    rw [h3 t ht.le, pfRun_key u0 us k t ht.le]
    exact hk ⟨t, by omega⟩ m
  have h5 : ∀ T ≤ us.length, ∀ i, ∀ s ≤ us.length,
      lineage (fun t => (pfRun rng.toPrng mdl I zeroLogits u0 us k t).ancestors) T i s = i := by
    intro T
    induction T with
    | zero => intro _ i s _; rfl
    | succ T ih =>
      intro hT i s hs
      simp only [lineage, h4 T (by omega), id]
      split
      · exact ih (by omega) i s hs
      · rfl
  exact fun i s hs => h5 us.length le_rfl i s hs

omit [MeasurableSpace X] in
/-- C124: systematic and killing resampling are such functions. -/
theorem systematic_killing_distinct [NeZero N] (h : IdealRng rng P) (pf : Platform) (dummyX : X) (u0 : Inp)
    (us : List Inp) (hpot : ∀ u ∈ us, ∀ x x', mdl.logPotential x x' u = 0) :
    ∀ R ∈ ({systematic rng pf, killing rng pf} : Set (Resampler K N X)),
    ∀ᵐ k ∂P, ∃ S : ℕ → PFState K X Inp N, (filter rng.toPrng (particleFilter rng.toPrng mdl dummyX N R) (u0 :: us)
        false (some k)).result = .ok ((List.range (us.length + 1)).map fun t => .ok (S t)) ∧
      ∀ i, ∀ s ≤ us.length, lineage (fun t => (S t).ancestors) us.length i s = i := by
  rintro R (rfl | rfl)
  · exact lineages_distinct h (uses_systematic rng pf) (keepsEqual_systematic h pf) dummyX u0 us hpot
  · exact lineages_distinct h (uses_killing rng pf) (keepsEqual_killing rng P pf) dummyX u0 us hpot

/-- A random walk with a potential that depends on both ends of the move. -/
def mergeWalk (rng : Rng K) : FKModel K ℝ ℝ where
  initSample k _ := rng.uniform0 k
  propagate k x _ := x + rng.uniform0 k
  logPotential x x' u := Fl.fin (-(x' - u) ^ 2 - x ^ 2)

theorem mergeWalk_regular (h : IdealRng rng P) (u : ℝ) : (mergeWalk rng).Regular u where
  propagate := measurable_snd.add (h.uniform0.measurable.comp measurable_fst)
  logPotential := Fl.measurable_fin.comp
    ((((measurable_snd.sub_const u).pow_const 2).neg).sub (measurable_fst.pow_const 2))
  isLog _ _ := trivial

omit [MeasurableSpace X] [MeasurableSpace K] in
theorem copiesParticles_multinomial [NeZero N] (rng : Rng K) (pf : Platform) (n : ℕ) :
    CopiesParticles (X := X) (N := N) (multinomial rng pf) n :=
  fun k l pos => ⟨_, multinomial_eq rng pf k l pos n, fun _ => rfl⟩

/-- The hypotheses of C124: with two particles and 20 steps the two initial states of the trajectories differ with
probability at most `2⁻²⁰`. -/
example : ∃ (rng : Rng Key) (bad : Set Key), keyLaw bad ≤ ENNReal.ofReal ((1 / 2) ^ 20) ∧ ∀ k ∉ bad, ∃ states,
    (filter rng.toPrng (particleFilter rng.toPrng (mergeWalk rng) 0 2 (multinomial rng .cpu)) (0 :: List.replicate 20 1)
      false (some k)).result = .ok states ∧ ∀ k', ∃ out, (smoother rng.toPrng (fun _ => 0) (fun _ => .ok 0)
        (particleSmoother rng.toPrng (fun _ => .ok 0) (mergeWalk rng).logPotential tracing (multinomial rng .cpu) 2)
        states (some (List.replicate 20 1)) false (some k')).result = .ok out ∧
      ∃ s, out[0]? = some (.ok s) ∧ s.n = 2 ∧ ∀ i j, s.particles i = s.particles j := by
  obtain ⟨rng, h, -⟩ := exists_ideal_prefix
  obtain ⟨bad, h1, h2⟩ := tracing_paths_merge (N := 2) (mdl := mergeWalk rng) (u0 := 0) h .cpu 0 (List.replicate 20 1)
    h.uniform0.measurable (fun u _ => mergeWalk_regular h u) (fun _ _ _ _ => trivial) 0
  refine ⟨rng, bad, h1.trans (ENNReal.ofReal_le_ofReal (by norm_num)), fun k hk => ?_⟩
  obtain ⟨states, h3, h4⟩ := h2 k hk
  refine ⟨states, h3, fun k' => ?_⟩
  obtain ⟨out, h5, -, h6⟩ := h4 (fun _ => 0) (fun _ => .ok 0) (mergeWalk rng).logPotential (multinomial rng .cpu) 2 1
    (List.replicate 19 1) 0 0 k' (copiesParticles_multinomial rng .cpu 2) rfl rfl (by simp)
  obtain ⟨s, h7, h8, h9⟩ := h6 0 (Nat.zero_le _)
  exact ⟨out, h5, s, h7, h8, h9 le_rfl⟩

/-- The hypothesis of the last theorem of C124, over a hundred steps. -/
example : ∃ rng : Rng Key, ∀ᵐ k ∂keyLaw, ∃ S : ℕ → PFState Key ℝ Unit 5, (filter rng.toPrng (particleFilter rng.toPrng
      ⟨fun k _ => rng.uniform0 k, fun k x _ => x + rng.uniform0 k, fun _ _ _ => 0⟩ 0 5 (systematic rng .cpu))
      (() :: List.replicate 100 ()) false (some k)).result = .ok ((List.range 101).map fun t => .ok (S t)) ∧
    ∀ i, ∀ s ≤ 100, lineage (fun t => (S t).ancestors) 100 i s = i := by
  obtain ⟨rng, h, -⟩ := exists_ideal_prefix
  have h1 := systematic_killing_distinct (N := 5)
    (mdl := ⟨fun k _ => rng.uniform0 k, fun k x _ => x + rng.uniform0 k, fun _ _ _ => 0⟩) h .cpu 0 ()
    (List.replicate 100 ()) (fun _ _ _ _ => rfl) (systematic rng .cpu) (by simp)
  rw [List.length_replicate] at h1
  exact ⟨rng, h1⟩

end

end Cuthbert.SMC
