import Verif.Lemmas.IMH

/-!
# Properties: MCMC backward sampling (C57)
-/

namespace Cuthbert.SMC
open MeasureTheory Set Resampling Spec
open scoped ENNReal

noncomputable section

variable {K X Inp : Type} {N n : ℕ} [MeasurableSpace K] {P : Measure K} {rng : Rng K}

/-- The random map `J` of the indices leaves the product of the backward distributions of the slots
invariant: if the slots are independent draws from their backward distributions before, then so they are
afterwards. -/
def LeavesInvariant (P : Measure K) (x0 : Fin N → X) (l : Fin N → Fl) (ld : X → X → Fl) (x1 : Fin n → X)
    (J : K → (Fin n → Fin N) → Fin n → Fin N) : Prop :=
  ∀ b, ∑ a, (∏ m, ENNReal.ofReal (backwardProb x0 l ld (x1 m) (a m))) * P {k | J k a = b} =
    ∏ m, ENNReal.ofReal (backwardProb x0 l ld (x1 m) (b m))

omit [MeasurableSpace K] in
theorem sum_mul_ite {A : Type} [Fintype A] [DecidableEq A] (w : A → ℝ≥0∞) (b : A) :
    ∑ a, w a * (if a = b then 1 else 0) = w b := by simp

/-- C57, the scan: any number of steps that start from slots with correctly initialised log densities
leaves the backward distributions invariant, and returns slots with correct log densities. -/
theorem imh_scan_invariant [NeZero N] (h : IdealRng rng P) (pf : Platform) {x0 : Fin N → X} {x1 : Fin n → X}
    {l : Fin N → Fl} {ld : X → X → Fl} (hl : IsLogits l) (hs : ∀ m, CanSample x0 l ld (x1 m)) (nSteps : ℕ) :
    ∃ J : K → (Fin n → Fin N) → Fin n → Fin N,
      (∀ k a, imhScan rng pf x0 x1 l ld nSteps (rng.nth k (nSteps * 2))
        ⟨a, fun m => x0 (a m), fun m => ld (x0 (a m)) (x1 m)⟩ nSteps le_rfl =
          .ok ⟨J k a, fun m => x0 (J k a m), fun m => ld (x0 (J k a m)) (x1 m)⟩) ∧
      (∀ a b, MeasurableSet {k | J k a = b}) ∧ LeavesInvariant P x0 l ld x1 J := by
  classical
  have := h.prob
  have hst : ∀ a, Measurable fun q : K × K => imhMove rng pf x0 x1 l ld q.1 q.2 a := fun a =>
    measurable_imhIdx h pf l _ _ a
  have hJm : ∀ a, Measurable fun keys : Fin (nSteps * 2) → K =>
      runIdx (imhMove rng pf x0 x1 l ld) a nSteps (nSteps * 2) le_rfl keys := fun a =>
    measurable_runIdx hst a _ nSteps le_rfl
  have hset : ∀ a b, MeasurableSet {k | runIdx (imhMove rng pf x0 x1 l ld) a nSteps (nSteps * 2) le_rfl
      (rng.nth k (nSteps * 2)) = b} := fun a b =>
    ((hJm a).comp (h.split (nSteps * 2)).measurable) (measurableSet_singleton b)
  refine ⟨fun k a => runIdx (imhMove rng pf x0 x1 l ld) a nSteps (nSteps * 2) le_rfl (rng.nth k (nSteps * 2)),
    fun k a => imhScan_carry rng pf x0 x1 l ld nSteps _ a nSteps le_rfl, hset, fun b => ?_⟩
  have h1 := runIdx_invariant (P := P) hst (w := backwardJoint x0 l ld x1)
    (fun G => imhMove_invariant h pf hl hs G) nSteps (nSteps * 2) rfl fun a => if a = b then 1 else 0
  rw [sum_mul_ite] at h1
  rw [← backwardJoint, ← h1]
  refine Finset.sum_congr rfl fun a _ => ?_
  rw [← backwardJoint]
  congr 1
  have hF : Measurable fun keys : Fin (nSteps * 2) → K =>
      if runIdx (imhMove rng pf x0 x1 l ld) a nSteps (nSteps * 2) le_rfl keys = b then (1 : ℝ≥0∞) else 0 :=
    (measurable_of_finite fun c : Fin n → Fin N => if c = b then (1 : ℝ≥0∞) else 0).comp (hJm a)
  rw [← h.lintegral_split (nSteps * 2) hF, ← lintegral_indicator_one (hset a b)]
  refine lintegral_congr fun k => ?_
  rw [indicator_apply]
  rfl

/-- C57, the sampler: if exchanging the arguments of the log density makes no difference, MCMC backward
sampling with any number of steps leaves the product of the backward distributions invariant. Missing: for
other log densities this is false (`mcmc_not_invariant`), because the sampler initialises the log density of
every slot with its arguments exchanged. -/
theorem mcmc_invariant_partial [NeZero N] (h : IdealRng rng P) (pf : Platform) {x0 : Fin N → X} {x1 : Fin n → X}
    {l : Fin N → Fl} {ld : X → X → Fl} (hl : IsLogits l) (hs : ∀ m, CanSample x0 l ld (x1 m)) (nSteps : ℕ)
    (hsym : ∀ m i, ld (x1 m) (x0 i) = ld (x0 i) (x1 m)) :
    ∃ J : K → (Fin n → Fin N) → Fin n → Fin N,
      (∀ k a, mcmc rng pf nSteps k x0 n x1 l ld a = .ok (fun m => x0 (J k a m), J k a)) ∧
      LeavesInvariant P x0 l ld x1 J := by
  have := h.prob
  obtain ⟨J, h1, h2, h3⟩ := imh_scan_invariant h pf hl hs nSteps
  refine ⟨fun k => J (rng.nth k 2 0), fun k a => ?_, fun b => ?_⟩
  · have h4 := h1 (rng.nth k 2 0) a
    simp only [mcmc, tracing, hsym]
    show (imhScan rng pf x0 x1 l ld nSteps (rng.nth (rng.nth k 2 0) (nSteps * 2))
        ⟨a, fun m => x0 (a m), fun m => ld (x0 (a m)) (x1 m)⟩ nSteps le_rfl >>= fun out => _) = _
    rw [h4]
    rfl
  · rw [← h3 b]
    refine Finset.sum_congr rfl fun a _ => ?_
    congr 1
    exact (h.measurePreserving_nth 2 0).measure_preimage (h2 a b).nullMeasurableSet

/-- A log density that is positive when it is evaluated with the arguments exchanged. -/
def backwardsDensity (x x' : Fin 3) : Fl := if x = 2 ∧ x' = 0 then Fl.fin (Real.log 2) else 0

/-- C57 is false of the code: for two particles with equal weights and equal densities the indices
should stay uniform, but after one step the first particle has probability `5 / 8`. -/
theorem mcmc_not_invariant (h : IdealRng rng P) (pf : Platform) :
    ∃ J : K → (Fin 1 → Fin 2) → Fin 1 → Fin 2,
      (∀ k a, mcmc rng pf 1 k ![0, 1] 1 (fun _ => 2) (fun _ => 0) backwardsDensity a =
        .ok (fun m => ![0, 1] (J k a m), J k a)) ∧
      (∀ i, backwardProb ![0, 1] (fun _ : Fin 2 => 0) backwardsDensity 2 i = 1 / 2) ∧
      ∑ a, (∏ m, ENNReal.ofReal (backwardProb ![0, 1] (fun _ => 0) backwardsDensity 2 (a m))) *
        P {k | J k a = fun _ => 0} = ENNReal.ofReal (5 / 8) := by
  classical
  have := h.prob
  obtain ⟨p, hp⟩ : ∃ p : Fin 1 → Fin 2 → Fl, p = fun _ i => backwardsDensity (![0, 1] i) 2 := ⟨_, rfl⟩
  have hp0 : ∀ m i, p m i = Fl.fin 0 := by
    intro m i
    rw [hp]
    fin_cases i <;> rfl
  have hl : IsLogits (fun _ : Fin 2 => (0 : Fl)) := ⟨fun _ => trivial, 0, trivial⟩
  have hw : ∀ i, nw (fun _ : Fin 2 => (0 : Fl)) i = 1 / 2 := by
    intro i
    have h0 : (0 : Fl).lik = 1 := by
      show (Fl.fin 0).lik = 1
      simp [Fl.lik]
    simp [nw, h0]
  have hb : ∀ i, backwardProb ![0, 1] (fun _ : Fin 2 => 0) backwardsDensity 2 i = 1 / 2 := by
    intro i
    have h1 : ∀ i, backwardsDensity (![0, 1] i) 2 = Fl.fin 0 := by
      intro i; fin_cases i <;> rfl
    simp [backwardProb, h1, Fl.lik]
  obtain ⟨c, hc⟩ : ∃ c : (Fin 1 → Fin 2) → Fin 1 → Fl, c = fun a m => backwardsDensity 2 (![0, 1] (a m)) :=
    ⟨_, rfl⟩
  refine ⟨fun k a => imhIdx rng pf (fun _ => 0) p (c a) (rng.nth (rng.nth k 2 0) 2 0)
    (rng.nth (rng.nth k 2 0) 2 1) a, fun k a => ?_, hb, ?_⟩
  · rw [hp, hc]
    rfl
  · have h1 : ∀ a, P {k | imhIdx rng pf (fun _ => 0) p (c a) (rng.nth (rng.nth k 2 0) 2 0)
        (rng.nth (rng.nth k 2 0) 2 1) a = fun _ => 0} = ENNReal.ofReal (slotProb (fun _ => 1 / 2)
          (fun i => accProb (Fl.fin 0) (c a 0)) (a 0) 0) := by
      intro a
      have hm := measurable_imhIdx h pf (fun _ => 0) p (c a) a
      have hm1 : MeasurableSet {k | imhIdx rng pf (fun _ => 0) p (c a) (rng.nth k 2 0)
          (rng.nth k 2 1) a = fun _ => 0} :=
        (hm.comp ((h.measurable_nth 2 0).prodMk (h.measurable_nth 2 1))) (measurableSet_singleton _)
      obtain ⟨G, hG⟩ : ∃ G : (Fin 1 → Fin 2) → ℝ≥0∞, G = fun b => if b = fun _ => 0 then 1 else 0 := ⟨_, rfl⟩
      have hF : Measurable fun q : K × K => G (imhIdx rng pf (fun _ => 0) p (c a) q.1 q.2 a) :=
        (measurable_of_finite G).comp hm
      have h2 := h.lintegral_split_two hF
      rw [lintegral_lintegral_swap hF.aemeasurable, imhIdx_law h pf hl] at h2
      have h3 : P {k | imhIdx rng pf (fun _ => 0) p (c a) (rng.nth (rng.nth k 2 0) 2 0)
          (rng.nth (rng.nth k 2 0) 2 1) a = fun _ => 0} = P {k | imhIdx rng pf (fun _ => 0) p (c a)
            (rng.nth k 2 0) (rng.nth k 2 1) a = fun _ => 0} :=
        (h.measurePreserving_nth 2 0).measure_preimage hm1.nullMeasurableSet
      rw [h3, ← lintegral_indicator_one hm1]
      refine Eq.trans (lintegral_congr fun k => ?_) (h2.trans ?_)
      · rw [hG, indicator_apply]; rfl
      · rw [hG]
        simp only [hp0, mul_ite, mul_one, mul_zero, Finset.sum_ite_eq', Finset.mem_univ, if_true]
        rw [show nw (fun _ : Fin 2 => (0 : Fl)) = fun _ => 1 / 2 from funext hw]
        simp
    simp only [h1, hb]
    have h2 : ∑ a : Fin 1 → Fin 2, (∏ _m : Fin 1, ENNReal.ofReal (1 / 2)) * ENNReal.ofReal (slotProb (fun _ => 1 / 2)
          (fun i => accProb (Fl.fin 0) (c a 0)) (a 0) 0) =
        ∑ i : Fin 2, ENNReal.ofReal (1 / 2) * ENNReal.ofReal (slotProb (fun _ => 1 / 2)
          (fun _ => accProb (Fl.fin 0) (backwardsDensity 2 (![0, 1] i))) i 0) := by
      rw [← (Equiv.funUnique (Fin 1) (Fin 2)).symm.sum_comp]
      simp [hc]
    rw [h2, Fin.sum_univ_two]
    have h3 : backwardsDensity 2 (![0, 1] (0 : Fin 2)) = Fl.fin (Real.log 2) := rfl
    have h4 : backwardsDensity 2 (![0, 1] (1 : Fin 2)) = Fl.fin 0 := rfl
    rw [h3, h4, accProb_eq (p := Fl.fin 0) trivial, accProb_eq (p := Fl.fin 0) trivial, Real.exp_log two_pos, Fl.lik, Real.exp_zero,
      ← ENNReal.ofReal_mul (by norm_num), ← ENNReal.ofReal_mul (by norm_num), ← ENNReal.ofReal_add]
    · congr 1
      simp [slotProb, Fin.sum_univ_two]
      norm_num
    · simp [slotProb, Fin.sum_univ_two]
      norm_num
    · simp [slotProb]

/-- Ideal generators exist, so `mcmc_not_invariant` is about real executions; and a symmetric log density
meets the hypotheses of `mcmc_invariant_partial`. -/
example : ∃ rng : Rng Key, IdealRng rng keyLaw ∧
    IsLogits ![Fl.ninf, Fl.fin 2, Fl.fin (-1)] ∧
    (∀ m : Fin 2, CanSample (fun j : Fin 3 => (j : ℝ)) ![Fl.ninf, Fl.fin 2, Fl.fin (-1)]
      (fun x x' => Fl.fin (-(x - x') ^ 2)) (![1, 7] m)) ∧
    ∀ (m : Fin 2) (j : Fin 3), Fl.fin (-((![1, 7] : Fin 2 → ℝ) m - (j : ℝ)) ^ 2) =
      Fl.fin (-((j : ℝ) - (![1, 7] : Fin 2 → ℝ) m) ^ 2) := by
  obtain ⟨rng, h, _⟩ := exists_ideal_prefix
  refine ⟨rng, h, ⟨fun i => by fin_cases i <;> trivial, 1, trivial⟩, fun m =>
    ⟨fun i => by fin_cases i <;> trivial, fun _ => trivial, 1, trivial, trivial⟩, fun m j => ?_⟩
  congr 1
  ring

end

end Cuthbert.SMC
