import Verif.Lemmas.IMHConvergence
import Verif.Props.MCMCSmoother
import Mathlib.Analysis.SpecificLimits.Basic

/-!
# Properties: MCMC backward sampling converges to exact backward sampling (C85)
-/

namespace Cuthbert.SMC
open MeasureTheory Set Resampling Spec Filter Topology
open scoped ENNReal

noncomputable section

variable {K X Inp : Type} {N n : ℕ} [MeasurableSpace K] {P : Measure K} {rng : Rng K}

/-- The log densities of the slots can be compared when the sampler starts from the ancestors `a`: those that
it evaluates first, with the arguments in the other order, are numbers or `-∞` as well. -/
def CanStart (x0 : Fin N → X) (ld : X → X → Fl) (x1 : Fin n → X) (a : Fin n → Fin N) : Prop :=
  ∀ m, (ld (x1 m) (x0 (a m))).IsLog

/-- C85: after `nSteps` steps from any ancestors, MCMC backward sampling returns independent slots, and the
distribution of every slot differs from the exact backward distribution (in the sum of absolute differences)
by at most `2 (1 - z / G) ^ nSteps`, where `G` bounds the densities and `z` bounds from below the weighted
average of the densities. This holds in spite of the wrong initial log density (C57), which only has to be
bounded by `G` too. -/
theorem mcmc_close [NeZero N] (h : IdealRng rng P) (pf : Platform) {x0 : Fin N → X} {x1 : Fin n → X}
    {l : Fin N → Fl} {ld : X → X → Fl} (hl : IsLogits l) (hs : ∀ m, CanSample x0 l ld (x1 m)) {a : Fin n → Fin N}
    (ha : CanStart x0 ld x1 a) {G z : ℝ} (hG : 0 < G) (hldG : ∀ m i, (ld (x0 i) (x1 m)).lik ≤ G)
    (haG : ∀ m, (ld (x1 m) (x0 (a m))).lik ≤ G) (hz : ∀ m, z ≤ ∑ i, nw l i * (ld (x0 i) (x1 m)).lik) (nSteps : ℕ) :
    ∃ (J : K → Fin n → Fin N) (μ : Fin n → Fin N → ℝ),
      (∀ k, mcmc rng pf nSteps k x0 n x1 l ld a = .ok (fun m => x0 (J k m), J k)) ∧
      (∀ m i, 0 ≤ μ m i) ∧ (∀ m, ∑ i, μ m i = 1) ∧
      (∀ b, P {k | J k = b} = ∏ m, ENNReal.ofReal (μ m (b m))) ∧
      ∀ m, ∑ i, |μ m i - backwardProb x0 l ld (x1 m) i| ≤ 2 * (1 - z / G) ^ nSteps := by
  classical
  have := h.prob
  obtain ⟨p, hp⟩ : ∃ p : Fin n → Fin N → Fl, p = fun m i => ld (x0 i) (x1 m) := ⟨_, rfl⟩
  obtain ⟨c, hc⟩ : ∃ c : Fin n → Fl, c = fun m => ld (x1 m) (x0 (a m)) := ⟨_, rfl⟩
  obtain ⟨s, hsd⟩ : ∃ s : Fin n → Fin N × Bool, s = fun m => (a m, true) := ⟨_, rfl⟩
  obtain ⟨ν, hν⟩ : ∃ ν : Fin n → Fin N × Bool → ℝ, ν = fun m => chainLaw (slotKernel (nw l) (p m) (c m))
    (fun s' => if s m = s' then 1 else 0) nSteps := ⟨_, rfl⟩
  have hν0 : ∀ m s', 0 ≤ ν m s' := fun m s' => by
    rw [hν]
    exact chainLaw_nonneg (slotKernel_nonneg (nw_nonneg l) _ _) (fun _ => by split_ifs <;> norm_num) _ _
  have hμ1 : ∀ m, ∑ s', (if s m = s' then 1 else 0 : ℝ) = 1 := fun m => by simp
  have hκ1 : ∀ m s', ∑ b, slotKernel (nw l) (p m) (c m) s' b = 1 := fun m s' => jumpProb_sum (nw_sum hl) s'
  have hν1 : ∀ m, ∑ s', ν m s' = 1 := fun m => by
    rw [hν]
    exact chainLaw_sum (hκ1 m) (hμ1 m) _
  -- the run
  obtain ⟨R, hR⟩ : ∃ R : (Fin (nSteps * 2) → K) → Fin n → Fin N × Bool,
    R = fun keys => runIdx (extMove rng pf l p c) s nSteps (nSteps * 2) le_rfl keys := ⟨_, rfl⟩
  have hRm : Measurable R := by
    have hst : ∀ b, Measurable fun q : K × K => extMove rng pf l p c q.1 q.2 b := fun b =>
      measurable_slotMove h pf l p _ _ b
    rw [hR]
    exact measurable_runIdx hst s _ nSteps le_rfl
  refine ⟨fun k m => (R (rng.nth (rng.nth k 2 0) (nSteps * 2)) m).1, fun m i => ∑ t, ν m (i, t), fun k => ?_,
    fun m i => Finset.sum_nonneg fun t _ => hν0 m _, fun m => ?_, fun b => ?_, fun m => ?_⟩
  · have h1 := imhScan_ext rng pf x0 x1 l ld nSteps (rng.nth (rng.nth k 2 0) (nSteps * 2)) c s nSteps le_rfl
    have h2 : (⟨fun m => (s m).1, fun m => x0 (s m).1, fun m => carried (fun i => ld (x0 i) (x1 m)) (c m) (s m)⟩ :
        IMHCarry N n X) = ⟨a, fun m => x0 (a m), fun m => ld (x1 m) (x0 (a m))⟩ := by
      simp [hsd, hc, carried]
    rw [h2] at h1
    simp only [mcmc, tracing]
    show (imhScan rng pf x0 x1 l ld nSteps (rng.nth (rng.nth k 2 0) (nSteps * 2))
        ⟨a, fun m => x0 (a m), fun m => ld (x1 m) (x0 (a m))⟩ nSteps le_rfl >>= fun out => _) = _
    rw [h1, hR, hp]
    rfl
  · rw [← hν1 m, Fintype.sum_prod_type]
  · have hfst : Measurable fun e : Fin n → Fin N × Bool => fun m => (e m).1 :=
      measurable_of_finite _
    have hS : MeasurableSet {keys | (fun m => (R keys m).1) = b} := (hfst.comp hRm) (measurableSet_singleton b)
    have h1 : P {k | (fun m => (R (rng.nth (rng.nth k 2 0) (nSteps * 2)) m).1) = b} =
        (Measure.pi fun _ => P) {keys : Fin (nSteps * 2) → K | (fun m => (R keys m).1) = b} := by
      have h2 := (h.split (nSteps * 2)).measure_preimage hS.nullMeasurableSet
      rw [← h2]
      exact (h.measurePreserving_nth 2 0).measure_preimage
        (hS.preimage (h.split (nSteps * 2)).measurable).nullMeasurableSet
    rw [h1, ← lintegral_indicator_one hS]
    have h2 := lintegral_ext h pf hl p c s nSteps fun e => if (fun m => (e m).1) = b then 1 else 0
    refine Eq.trans (lintegral_congr fun keys => ?_) (h2.trans ?_)
    · rw [indicator_apply, hR]
      rfl
    · rw [hν]
      have h5 := Finset.prod_univ_sum (fun _ : Fin n => (Finset.univ : Finset (Fin N × Bool)))
        (fun m s' => ENNReal.ofReal (chainLaw (slotKernel (nw l) (p m) (c m))
          (fun s' => if s m = s' then 1 else 0) nSteps s') * if s'.1 = b m then 1 else 0)
      rw [Fintype.piFinset_univ] at h5
      refine Eq.trans (Finset.sum_congr rfl fun e _ => ?_) (h5.symm.trans ?_)
      · rw [Finset.prod_mul_distrib]
        congr 1
        by_cases hb : (fun m => (e m).1) = b
        · rw [if_pos hb]
          exact (Finset.prod_eq_one fun m _ => if_pos (congrFun hb m)).symm
        · rw [if_neg hb]
          obtain ⟨m, hm⟩ := Function.ne_iff.mp hb
          exact (Finset.prod_eq_zero (Finset.mem_univ m) (if_neg hm)).symm
      · refine Finset.prod_congr rfl fun m _ => ?_
        rw [Fintype.sum_prod_type, ENNReal.ofReal_sum_of_nonneg]
        · simp only [mul_ite, mul_one, mul_zero]
          rw [Finset.sum_eq_single (b m)]
          · simp
          · intro i _ hi
            simp [hi]
          · simp
        · intro t _
          have := hν0 m (b m, t)
          rw [hν] at this
          exact this
  · -- the distance of one slot
    obtain ⟨Z, hZ⟩ : ∃ Z, Z = ∑ i, nw l i * (p m i).lik := ⟨_, rfl⟩
    have hq : ∀ i, backwardProb x0 l ld (x1 m) i = nw l i * (p m i).lik / ∑ j, nw l j * (p m j).lik := fun i => by
      rw [hp]
      exact backwardProb_nw hl ld (x1 m) i
    have hpl : ∀ i, (p m i).IsLog := fun i => by rw [hp]; exact (hs m).2.1 i
    have hcl : (c m).IsLog := by rw [hc]; exact ha m
    have hZ0 : 0 < Z := by
      obtain ⟨j, hj1, hj2⟩ := (hs m).2.2
      rw [hZ]
      refine Finset.sum_pos' (fun i _ => mul_nonneg (nw_nonneg l i) (Fl.lik_nonneg _)) ⟨j, Finset.mem_univ _, ?_⟩
      refine mul_pos (div_pos ?_ (sum_lik_pos hl)) ?_
      · exact Fl.lik_pos hj1
      · rw [hp]
        exact Fl.lik_pos hj2
    have hπ1 : ∑ s', slotTarget (backwardProb x0 l ld (x1 m)) s' = 1 := by
      rw [Fintype.sum_prod_type]
      simp only [Fintype.sum_bool, slotTarget, if_true, zero_add, Bool.false_eq_true, if_false, hq]
      rw [← Finset.sum_div, ← hZ, div_self hZ0.ne']
    have hZG : Z ≤ G := by
      rw [hZ]
      calc _ ≤ ∑ i, nw l i * G := Finset.sum_le_sum fun i _ =>
            mul_le_mul_of_nonneg_left (by rw [hp]; exact hldG m i) (nw_nonneg l i)
        _ = G := by rw [← Finset.sum_mul, nw_sum hl, one_mul]
    have hcon := chainLaw_contract (ε := Z / G) (hκ1 m) (hμ1 m) hπ1
      (slotKernel_invariant (nw_sum hl) (c m) hpl hq)
      (slotKernel_minor (nw_nonneg l) hpl hcl hG (fun i => by rw [hp]; exact hldG m i)
        (by rw [hc]; exact haG m) hZ0 (fun i => by rw [hq, ← hZ])) nSteps
    have hstart : ∑ s', |(if s m = s' then 1 else 0) - slotTarget (backwardProb x0 l ld (x1 m)) s'| ≤ 2 := by
      calc _ ≤ ∑ s', ((if s m = s' then 1 else 0) + slotTarget (backwardProb x0 l ld (x1 m)) s') := by
            refine Finset.sum_le_sum fun s' _ => ?_
            refine (abs_sub _ _).trans_eq ?_
            rw [abs_of_nonneg (by split_ifs <;> norm_num), abs_of_nonneg]
            rw [slotTarget]
            split_ifs
            exacts [le_rfl, backwardProb_nonneg ..]
        _ = 2 := by rw [Finset.sum_add_distrib, hμ1, hπ1]; norm_num
    have hzG : z ≤ Z := by
      rw [hZ, hp]
      exact hz m
    calc _ ≤ ∑ i, ∑ t, |ν m (i, t) - slotTarget (backwardProb x0 l ld (x1 m)) (i, t)| := by
          refine Finset.sum_le_sum fun i _ => ?_
          refine le_trans (le_of_eq ?_) (Finset.abs_sum_le_sum_abs _ _)
          rw [Finset.sum_sub_distrib]
          congr 2
          simp [slotTarget]
      _ = ∑ s', |ν m s' - slotTarget (backwardProb x0 l ld (x1 m)) s'| := by rw [Fintype.sum_prod_type]
      _ ≤ (1 - Z / G) ^ nSteps * 2 := by
          rw [hν]
          refine hcon.trans (mul_le_mul_of_nonneg_left hstart ?_)
          exact pow_nonneg (by rw [sub_nonneg]; exact (div_le_one hG).mpr hZG) _
      _ ≤ _ := by
          rw [mul_comm]
          refine mul_le_mul_of_nonneg_left (pow_le_pow_left₀ ?_ ?_ _) (by norm_num)
          · rw [sub_nonneg]; exact (div_le_one hG).mpr hZG
          · have := div_le_div_of_nonneg_right hzG hG.le
            linarith

/-- C85, the limit: as the number of steps grows, the joint distribution of the ancestors that MCMC backward
sampling returns converges to that of exact backward sampling, independent slots with the backward
probabilities; whatever the ancestors from which it starts. -/
theorem mcmc_converges [NeZero N] (h : IdealRng rng P) (pf : Platform) {x0 : Fin N → X} {x1 : Fin n → X}
    {l : Fin N → Fl} {ld : X → X → Fl} (hl : IsLogits l) (hs : ∀ m, CanSample x0 l ld (x1 m)) {a : Fin n → Fin N}
    (ha : CanStart x0 ld x1 a) :
    ∃ J : ℕ → K → Fin n → Fin N,
      (∀ t k, mcmc rng pf t k x0 n x1 l ld a = .ok (fun m => x0 (J t k m), J t k)) ∧
      ∀ b, Tendsto (fun t => P {k | J t k = b}) atTop
        (𝓝 (∏ m, ENNReal.ofReal (backwardProb x0 l ld (x1 m) (b m)))) := by
  have hG0 : ∀ m i, 0 ≤ (ld (x0 i) (x1 m)).lik := fun m i => Fl.lik_nonneg _
  have hc0 : ∀ m, 0 ≤ (ld (x1 m) (x0 (a m))).lik := fun m => Fl.lik_nonneg _
  obtain ⟨G, hG, hG1, hG2⟩ : ∃ G : ℝ, 0 < G ∧ (∀ m i, (ld (x0 i) (x1 m)).lik ≤ G) ∧
      ∀ m, (ld (x1 m) (x0 (a m))).lik ≤ G := by
    have h1 : 0 ≤ ∑ m, ∑ i, (ld (x0 i) (x1 m)).lik :=
      Finset.sum_nonneg fun m _ => Finset.sum_nonneg fun i _ => hG0 m i
    have h2 : 0 ≤ ∑ m, (ld (x1 m) (x0 (a m))).lik := Finset.sum_nonneg fun m _ => hc0 m
    refine ⟨∑ m, ∑ i, (ld (x0 i) (x1 m)).lik + ∑ m, (ld (x1 m) (x0 (a m))).lik + 1, by linarith,
      fun m i => ?_, fun m => ?_⟩
    · have h3 := Finset.single_le_sum (fun i _ => hG0 m i) (Finset.mem_univ i)
      have h4 := Finset.single_le_sum (f := fun m => ∑ i, (ld (x0 i) (x1 m)).lik)
        (fun m _ => Finset.sum_nonneg fun i _ => hG0 m i) (Finset.mem_univ m)
      exact (h3.trans h4).trans (by linarith)
    · have h3 := Finset.single_le_sum (fun m _ => hc0 m) (Finset.mem_univ m)
      linarith
  have hZ : ∀ m, 0 < ∑ i, nw l i * (ld (x0 i) (x1 m)).lik := fun m => by
    obtain ⟨j, hj1, hj2⟩ := (hs m).2.2
    refine Finset.sum_pos' (fun i _ => mul_nonneg (nw_nonneg l i) (Fl.lik_nonneg _)) ⟨j, Finset.mem_univ _, ?_⟩
    exact mul_pos (div_pos (Fl.lik_pos hj1) (sum_lik_pos hl)) (Fl.lik_pos hj2)
  obtain ⟨z, hz0, hzG, hz⟩ : ∃ z : ℝ, 0 < z ∧ z ≤ G ∧ ∀ m, z ≤ ∑ i, nw l i * (ld (x0 i) (x1 m)).lik := by
    rcases isEmpty_or_nonempty (Fin n) with hn | hn
    · exact ⟨G, hG, le_rfl, fun m => (hn.false m).elim⟩
    · obtain ⟨m, _, hm⟩ := Finset.exists_min_image Finset.univ
        (fun m => ∑ i, nw l i * (ld (x0 i) (x1 m)).lik) ⟨hn.some, Finset.mem_univ _⟩
      exact ⟨min G (∑ i, nw l i * (ld (x0 i) (x1 m)).lik), lt_min hG (hZ m), min_le_left _ _, fun m' =>
        (min_le_right _ _).trans (hm m' (Finset.mem_univ _))⟩
  choose J μ h1 h2 h3 h4 h5 using fun t => mcmc_close h pf hl hs ha hG hG1 hG2 hz t
  refine ⟨J, h1, fun b => ?_⟩
  have hp : ∀ m i, 0 ≤ backwardProb x0 l ld (x1 m) i := fun m i => backwardProb_nonneg _ _ _ _ _
  simp only [h4]
  rw [← ENNReal.ofReal_prod_of_nonneg fun m _ => hp m _]
  rw [show (fun t => ∏ m, ENNReal.ofReal (μ t m (b m))) = fun t => ENNReal.ofReal (∏ m, μ t m (b m)) from
    funext fun t => (ENNReal.ofReal_prod_of_nonneg fun m _ => h2 t m _).symm]
  refine ENNReal.tendsto_ofReal (tendsto_finsetProd _ fun m _ => ?_)
  rw [tendsto_iff_dist_tendsto_zero]
  have h6 : Tendsto (fun t : ℕ => 2 * (1 - z / G) ^ t) atTop (𝓝 0) := by
    rw [← mul_zero (2 : ℝ)]
    refine (tendsto_pow_atTop_nhds_zero_of_lt_one ?_ ?_).const_mul 2
    · rw [sub_nonneg]; exact (div_le_one hG).mpr hzG
    · have := div_pos hz0 hG
      linarith
  refine squeeze_zero (fun _ => dist_nonneg) (fun t => ?_) h6
  rw [Real.dist_eq]
  exact (Finset.single_le_sum (f := fun i => |μ t m i - backwardProb x0 l ld (x1 m) i|)
    (fun i _ => abs_nonneg _) (Finset.mem_univ (b m))).trans (h5 t m)

omit [MeasurableSpace K] in
/-- The condition `CanStart` is needed: where the log density with its arguments exchanged is NaN, the
sampler never moves, and returns the ancestors it was given. -/
theorem mcmc_stuck [NeZero N] (pf : Platform) {x0 : Fin N → X} {x1 : Fin n → X} {l : Fin N → Fl}
    {ld : X → X → Fl} {a : Fin n → Fin N} (ha : ∀ m, ld (x1 m) (x0 (a m)) = Fl.nan) (nSteps : ℕ) (k : K) :
    mcmc rng pf nSteps k x0 n x1 l ld a = .ok (fun m => x0 (a m), a) := by
  have h0 : ∀ p u, accepts p Fl.nan u = false := by
    intro p u
    have h1 : (p - Fl.nan : Fl) = Fl.nan := by cases p <;> rfl
    rw [accepts, h1, ← Bool.not_eq_true, Fl.ltb_iff]
    cases Fl.log (Fl.fin u) <;> exact fun h => h
  have h1 := imhScan_ext rng pf x0 x1 l ld nSteps (rng.nth (rng.nth k 2 0) (nSteps * 2)) (fun _ => Fl.nan)
    (fun m => (a m, true)) nSteps le_rfl
  have h2 : ∀ (t : ℕ) (ht : t * 2 ≤ nSteps * 2) keys, runIdx (extMove rng pf l (fun m i => ld (x0 i) (x1 m))
      (fun _ => Fl.nan)) (fun m => (a m, true)) t (nSteps * 2) ht keys = fun m => (a m, true) := by
    intro t
    induction t with
    | zero => exact fun _ _ => rfl
    | succ t ih =>
      intro ht keys
      rw [runIdx, ih]
      funext m
      rw [extMove, slotMove]
      simp [carried, h0]
  simp only [h2] at h1
  have h4 : (fun m => ld (x1 m) (x0 (a m))) = fun _ => Fl.nan := funext ha
  show (imhScan rng pf x0 x1 l ld nSteps (rng.nth (rng.nth k 2 0) (nSteps * 2))
      ⟨a, fun m => x0 (a m), fun m => ld (x1 m) (x0 (a m))⟩ nSteps le_rfl >>= fun out => _) = _
  rw [h4]
  show (imhScan rng pf x0 x1 l ld nSteps (rng.nth (rng.nth k 2 0) (nSteps * 2))
      ⟨a, fun m => x0 (a m), fun _ => Fl.nan⟩ nSteps le_rfl >>= fun out => _) = _
  have h3 : (⟨fun m => a m, fun m => x0 (a m), fun m => carried (fun i => ld (x0 i) (x1 m)) Fl.nan (a m, true)⟩ :
      IMHCarry N n X) = ⟨a, fun m => x0 (a m), fun _ => Fl.nan⟩ := by simp [carried]
  rw [h3] at h1
  rw [h1]
  rfl

/-- The hypotheses of `mcmc_converges` hold for an asymmetric log density, two slots and three particles, one
of which has weight zero; and for the log density of `mcmc_not_invariant`, for which one step is biased. -/
example : ∃ rng : Rng Key, IdealRng rng keyLaw ∧
    (∀ a : Fin 2 → Fin 3, CanStart (fun j : Fin 3 => (j : ℝ)) (fun x x' => Fl.fin (-(x - 2 * x') ^ 2)) ![1, 7] a) ∧
    (∀ m : Fin 2, CanSample (fun j : Fin 3 => (j : ℝ)) ![Fl.ninf, Fl.fin 2, Fl.fin (-1)]
      (fun x x' => Fl.fin (-(x - 2 * x') ^ 2)) ((![1, 7] : Fin 2 → ℝ) m)) ∧
    (∀ a : Fin 1 → Fin 2, CanStart ![0, 1] backwardsDensity (fun _ => 2) a) ∧
    CanSample ![0, 1] (fun _ : Fin 2 => 0) backwardsDensity 2 := by
  obtain ⟨rng, h, _⟩ := exists_ideal_prefix
  refine ⟨rng, h, fun a m => trivial, fun m =>
    ⟨fun i => by fin_cases i <;> trivial, fun _ => trivial, 1, trivial, trivial⟩, fun a m => ?_,
    fun _ => trivial, fun i => ?_, 0, trivial, trivial⟩
  · show (backwardsDensity 2 (![0, 1] (a m))).IsLog
    rw [backwardsDensity]
    split_ifs <;> trivial
  · rw [backwardsDensity]
    split_ifs <;> trivial

end

end Cuthbert.SMC
