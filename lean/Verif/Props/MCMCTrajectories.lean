import Verif.Props.MCMCConvergence
import Verif.Props.ParticleSmoother

/-!
# Properties: the particle smoother with MCMC backward sampling approaches the one with exact backward sampling (C123)
-/

namespace Cuthbert.SMC
open MeasureTheory Set Resampling Spec Filter Topology
open scoped ENNReal

noncomputable section

variable {K X Inp : Type} {N n : ℕ} [MeasurableSpace K] {P : Measure K} {rng : Rng K}

/-! ## C123 -/

omit [MeasurableSpace K] in
/-- The indices that MCMC backward sampling returns. -/
def mcmcIdx [NeZero N] (rng : Rng K) (pf : Platform) (nSteps : ℕ) : BackIdx K X N := fun k x0 _ x1 l ld a m =>
  (runIdx (extMove rng pf l (fun m i => ld (x0 i) (x1 m)) fun m => ld (x1 m) (x0 (a m))) (fun m => (a m, true)) nSteps
    (nSteps * 2) le_rfl (rng.nth (rng.nth k 2 0) (nSteps * 2)) m).1

omit [MeasurableSpace K] in
theorem samplesBy_mcmc [NeZero N] (rng : Rng K) (pf : Platform) (nSteps : ℕ) :
    SamplesBy (X := X) (N := N) (mcmc rng pf nSteps) (mcmcIdx rng pf nSteps) := by
  intro k x0 n x1 l ld a
  have h1 := imhScan_ext rng pf x0 x1 l ld nSteps (rng.nth (rng.nth k 2 0) (nSteps * 2)) (fun m => ld (x1 m) (x0 (a m)))
    (fun m => (a m, true)) nSteps le_rfl
  have h2 : (⟨fun m => a m, fun m => x0 (a m), fun m => carried (fun i => ld (x0 i) (x1 m)) (ld (x1 m) (x0 (a m)))
      (a m, true)⟩ : IMHCarry N n X) = ⟨a, fun m => x0 (a m), fun m => ld (x1 m) (x0 (a m))⟩ := by
    simp [carried]
  rw [h2] at h1
  simp only [mcmc, tracing]
  show (imhScan rng pf x0 x1 l ld nSteps (rng.nth (rng.nth k 2 0) (nSteps * 2))
      ⟨a, fun m => x0 (a m), fun m => ld (x1 m) (x0 (a m))⟩ nSteps le_rfl >>= fun out => _) = _
  rw [h1]
  rfl

theorem measurableSet_mcmcIdx [NeZero N] (h : IdealRng rng P) (pf : Platform) (nSteps : ℕ) (x0 : Fin N → X)
    (x1 : Fin n → X) (l : Fin N → Fl) (ld : X → X → Fl) (a b : Fin n → Fin N) :
    MeasurableSet {k | mcmcIdx rng pf nSteps k x0 n x1 l ld a = b} := by
  have hst : ∀ s, Measurable fun q : K × K => extMove rng pf l (fun m i => ld (x0 i) (x1 m))
      (fun m => ld (x1 m) (x0 (a m))) q.1 q.2 s := fun s => measurable_slotMove h pf l _ _ _ s
  have h1 := measurable_runIdx hst (fun m => (a m, true)) (nSteps * 2) nSteps le_rfl
  have h2 : Measurable fun e : Fin n → Fin N × Bool => fun m => (e m).1 := measurable_of_finite _
  exact (h2.comp (h1.comp ((h.split (nSteps * 2)).measurable.comp (h.measurePreserving_nth 2 0).measurable)))
    (measurableSet_singleton b)

/-- The probability of a trajectory of indices, for any backward sampling function. -/
theorem trajectory_law (h : IdealRng rng P) {B : BackIdx K X N}
    (hB : ∀ x0 (x1 : Fin n → X) l ld a b, MeasurableSet {k | B k x0 n x1 l ld a = b}) (F : ℕ → PFState K X Inp N)
    (ld : ℕ → X → X → Fl) (T : ℕ) {I : K → Fin n → Fin N} (hI : ∀ b, MeasurableSet {k | I k = b})
    (a : ℕ → Fin n → Fin N) :
    P {k | ∀ t ≤ T, backIdx B F ld (backKey rng.toPrng k T) T (I (rng.nth (rng.nth k (T + 1) 0) 2 1)) (T - t) = a t} =
      P {k | I k = a T} * ∏ t ∈ Finset.range T, P {k | B k (F t).particles n
        (fun m => (F (t + 1)).particles (a (t + 1) m)) (F t).logWeights (ld t)
        (fun m => (F (t + 1)).ancestors (a (t + 1) m)) = a t} := by
  have := h.prob
  have h1 : {k | ∀ t ≤ T, backIdx B F ld (backKey rng.toPrng k T) T
        (I (rng.nth (rng.nth k (T + 1) 0) 2 1)) (T - t) = a t} =
      (fun k (i : Fin (T + 1)) => rng.nth k (T + 1) i) ⁻¹' (Set.pi univ (Fin.cons
        {k | I (rng.nth k 2 1) = a T} fun t : Fin T => {k | B k (F t).particles n
          (fun m => (F (t + 1)).particles (a (t + 1) m)) (F t).logWeights (ld t)
          (fun m => (F (t + 1)).ancestors (a (t + 1) m)) = a t})) := by
    ext k
    simp only [mem_ofPred_eq, backIdx_eq_iff, mem_preimage, mem_univ_pi, Fin.forall_fin_succ, Fin.cons_zero,
      Fin.cons_succ]
    refine and_congr_right fun _ => ⟨fun h2 t => ?_, fun h2 t ht => ?_⟩
    · have h3 := h2 t t.2
      rw [backKey, dif_pos t.2] at h3
      exact h3
    · have h3 := h2 ⟨t, ht⟩
      rw [backKey, dif_pos ht]
      exact h3
  have hm0 : MeasurableSet {k | I (rng.nth k 2 1) = a T} := h.measurable_nth 2 1 (hI (a T))
  rw [h1, (h.split (T + 1)).measure_preimage, Measure.pi_pi, Fin.prod_univ_succ]
  · congr 1
    · exact (h.measurePreserving_nth 2 1).measure_preimage (hI (a T)).nullMeasurableSet
    · rw [Finset.prod_range]
      rfl
  · refine (MeasurableSet.univ_pi fun i => ?_).nullMeasurableSet
    refine Fin.cases ?_ (fun t => ?_) i
    · exact hm0
    · exact hB _ _ _ _ _ _

omit [MeasurableSpace K] in
/-- A run of the particle smoother. -/
theorem smoother_run (rng : Rng K) (inputsOf : Except Err (PFState K X Inp N) → Inp) (dummy : Inp → Except Err Inp)
    (lp : X → X → Inp → Fl) {sampler : BackwardSampler K X N} {B : BackIdx K X N} (hB : SamplesBy sampler B)
    (R : Resampler K N X) (n : ℕ) (F : ℕ → PFState K X Inp N) (u : Inp) (us : List Inp) {d d' : Inp}
    (hd : dummy u = .ok d) (hd' : dummy d = .ok d') {I : K → Fin n → Fin N} {L : K → Fin n → Fl}
    (hR : ∀ k, R k (F (us.length + 1)).logWeights (F (us.length + 1)).particles n =
      .ok ⟨I k, L k, fun m => (F (us.length + 1)).particles (I k m)⟩) (k : K) :
    ∃ (keys : ℕ → K) (inputs : ℕ → Inp) (weights : ℕ → Fin n → Fl),
      (smoother rng.toPrng inputsOf dummy (particleSmoother rng.toPrng dummy lp sampler R n)
        ((List.range (us.length + 2)).map fun t => .ok (F t)) (some (u :: us)) false (some k)).result =
        .ok ((List.range (us.length + 2)).map fun t => .ok ⟨n, keys t,
          fun m => (F t).particles (backIdx B F (usedDensity lp (u :: us) d') (backKey rng.toPrng k (us.length + 1))
            (us.length + 1) (I (rng.nth (rng.nth k (us.length + 2) 0) 2 1)) (us.length + 1 - t) m),
          fun m => (F t).ancestors (backIdx B F (usedDensity lp (u :: us) d') (backKey rng.toPrng k (us.length + 1))
            (us.length + 1) (I (rng.nth (rng.nth k (us.length + 2) 0) 2 1)) (us.length + 1 - t) m),
          inputs t, weights t⟩) := by
  have h1 := smoother_ps_eq rng.toPrng inputsOf dummy lp hB R n F u us k hd hd' (hR _) fun _ => rfl
  refine ⟨fun t => if t < us.length + 1 then backKey rng.toPrng k (us.length + 1) t else
      rng.nth (rng.nth k (us.length + 2) 0) 2 0,
    fun t => (u :: us)[t]?.getD d', fun t => if t < us.length + 1 then fun _ => -Fl.log (Fl.fin n) else
      L (rng.nth (rng.nth k (us.length + 2) 0) 2 1), ?_⟩
  rw [h1]
  refine congrArg Except.ok (List.map_congr_left fun t ht => ?_)
  have ht' : t < us.length + 2 := by simpa using ht
  congr 1
  by_cases h : t < us.length + 1
  · rw [psAt, dif_pos (by simpa using h)]
    simp only [if_pos h, List.length_cons]
    have h2 : (u :: us)[t]?.getD d' = (u :: us)[t]'(by simpa using h) := by
      rw [List.getElem?_eq_getElem (by simpa using h), Option.getD_some]
    rw [h2]
  · have h3 : t = us.length + 1 := by omega
    subst h3
    rw [psAt, dif_neg (by simp)]
    simp only [lt_irrefl, if_false, Nat.sub_self]
    have h2 : (u :: us)[us.length + 1]?.getD d' = d' := by
      rw [List.getElem?_eq_none (by simp), Option.getD_none]
    rw [h2]
    rfl

/-- The smoother, run with the key `k`, returns at each time `t` the filter's particles with indices `J k t` and their
ancestors. -/
def Traces (run : K → Outcome (Except Err (PSState K X Inp N))) (F : ℕ → PFState K X Inp N) (T n : ℕ)
    (J : K → ℕ → Fin n → Fin N) : Prop :=
  ∀ k, ∃ (keys : ℕ → K) (inputs : ℕ → Inp) (weights : ℕ → Fin n → Fl),
    (run k).result = .ok ((List.range (T + 1)).map fun t => .ok ⟨n, keys t, fun m => (F t).particles (J k t m),
      fun m => (F t).ancestors (J k t m), inputs t, weights t⟩)

/-- C123: as the number of MCMC steps grows, the joint law of all trajectories that the particle smoother returns with
MCMC backward sampling converges to the law of those that it returns with exact backward sampling. The conditions on
the trajectory are that the log densities along it can be compared; its ancestors are those of the filter states. -/
theorem mcmc_smoother_converges [NeZero N] (h : IdealRng rng P) (pf : Platform)
    (inputsOf : Except Err (PFState K X Inp N) → Inp) (dummy : Inp → Except Err Inp) (lp : X → X → Inp → Fl)
    (R : Resampler K N X) (n : ℕ) (F : ℕ → PFState K X Inp N) (u : Inp) (us : List Inp) {d d' : Inp}
    (hd : dummy u = .ok d) (hd' : dummy d = .ok d') {T : ℕ} (hT : T = us.length + 1)
    {I : K → Fin n → Fin N} {L : K → Fin n → Fl} (hI : ∀ b, MeasurableSet {k | I k = b})
    (hR : ∀ k, R k (F T).logWeights (F T).particles n = .ok ⟨I k, L k, fun m => (F T).particles (I k m)⟩) :
    ∃ (J : ℕ → K → ℕ → Fin n → Fin N) (J' : K → ℕ → Fin n → Fin N),
      (∀ nSteps, Traces (fun k => smoother rng.toPrng inputsOf dummy
        (particleSmoother rng.toPrng dummy lp (mcmc rng pf nSteps) R n)
        ((List.range (T + 1)).map fun t => .ok (F t)) (some (u :: us)) false (some k)) F T n (J nSteps)) ∧
      Traces (fun k => smoother rng.toPrng inputsOf dummy (particleSmoother rng.toPrng dummy lp (exact rng) R n)
        ((List.range (T + 1)).map fun t => .ok (F t)) (some (u :: us)) false (some k)) F T n J' ∧
      ∀ a : ℕ → Fin n → Fin N,
        (∀ t < T, ∀ v ∈ d' :: us, IsLogits (F t).logWeights ∧
          (∀ m, CanSample (F t).particles (F t).logWeights (fun x x' => lp x x' v)
            ((F (t + 1)).particles (a (t + 1) m))) ∧
          CanStart (F t).particles (fun x x' => lp x x' v) (fun m => (F (t + 1)).particles (a (t + 1) m))
            (fun m => (F (t + 1)).ancestors (a (t + 1) m))) →
        Tendsto (fun nSteps => P {k | ∀ t ≤ T, J nSteps k t = a t}) atTop (𝓝 (P {k | ∀ t ≤ T, J' k t = a t})) := by
  subst hT
  have := h.prob
  refine ⟨_, _, fun nSteps k => smoother_run rng inputsOf dummy lp (samplesBy_mcmc rng pf nSteps) R n F u us hd hd' hR k,
    fun k => smoother_run rng inputsOf dummy lp (samplesBy_exact rng) R n F u us hd hd' hR k, fun a ha => ?_⟩
  obtain ⟨ld, hld⟩ : ∃ ld, ld = usedDensity lp (u :: us) d' := ⟨_, rfl⟩
  have ha' : ∀ t < us.length + 1, IsLogits (F t).logWeights ∧
      (∀ m, CanSample (F t).particles (F t).logWeights (ld t) ((F (t + 1)).particles (a (t + 1) m))) ∧
      CanStart (F t).particles (ld t) (fun m => (F (t + 1)).particles (a (t + 1) m))
        (fun m => (F (t + 1)).ancestors (a (t + 1) m)) := by
    intro t ht
    rw [hld]
    refine ha t ht ((u :: us)[t + 1]?.getD d') ?_
    rw [List.getElem?_cons_succ]
    cases h1 : us[t]? with
    | none => exact List.mem_cons_self
    | some v => exact List.mem_cons_of_mem _ (List.mem_of_getElem? h1)
  rw [← hld]
  have h1 : ∀ nSteps, P {k | ∀ t ≤ us.length + 1, backIdx (mcmcIdx rng pf nSteps) F ld
      (backKey rng.toPrng k (us.length + 1)) (us.length + 1) (I (rng.nth (rng.nth k (us.length + 2) 0) 2 1))
      (us.length + 1 - t) = a t} = _ := fun nSteps => trajectory_law h (B := mcmcIdx rng pf nSteps)
        (fun x0 x1 l ld b c => measurableSet_mcmcIdx h pf nSteps x0 x1 l ld b c) F ld (us.length + 1) hI a
  have h0 : P {k | ∀ t ≤ us.length + 1, backIdx (exactIdx rng) F ld
      (backKey rng.toPrng k (us.length + 1)) (us.length + 1) (I (rng.nth (rng.nth k (us.length + 2) 0) 2 1))
      (us.length + 1 - t) = a t} = _ :=
    exact_trajectory_law h F ld (us.length + 1) hI a fun t ht m => (ha' t ht).2.1 m
  rw [h0]
  simp only [h1]
  refine ENNReal.Tendsto.const_mul ?_ (.inr (measure_ne_top _ _))
  refine ENNReal.tendsto_finsetProd_of_ne_top _ (fun t ht => ?_) fun t ht => ?_
  · obtain ⟨h2, h3, h4⟩ := ha' t (Finset.mem_range.mp ht)
    obtain ⟨J, h5, h6⟩ := mcmc_converges h pf h2 h3 h4
    have h7 : ∀ s k, J s k = mcmcIdx rng pf s k (F t).particles n (fun m => (F (t + 1)).particles (a (t + 1) m))
        (F t).logWeights (ld t) (fun m => (F (t + 1)).ancestors (a (t + 1) m)) := fun s k =>
      congrArg Prod.snd (Except.ok.inj ((h5 s k).symm.trans (samplesBy_mcmc rng pf s k _ n _ _ _ _)))
    have h8 := h6 (a t)
    simp only [h7] at h8
    exact h8
  · exact ENNReal.prod_ne_top fun m _ => ENNReal.ofReal_ne_top

/-- The hypotheses of C123 are met for every trajectory: Gaussian-like log densities, any filter states with finite
log-weights, and systematic resampling at the end. -/
example (F : ℕ → PFState Key ℝ Bool 3) (hF : ∀ t i, ((F t).logWeights i).IsFin) :
    ∃ rng : Rng Key, IdealRng rng keyLaw ∧
      (∃ I : Key → Fin 5 → Fin 3, (∀ b, MeasurableSet {k | I k = b}) ∧
        ∀ k, systematic rng .cpu k (F 4).logWeights (F 4).particles 5 =
          .ok ⟨I k, fun _ => 0, fun m => (F 4).particles (I k m)⟩) ∧
      ∀ (a : ℕ → Fin 5 → Fin 3) (t : ℕ) (v : Bool), IsLogits (F t).logWeights ∧
        (∀ m, CanSample (F t).particles (F t).logWeights (fun x x' => Fl.fin (-(x' - bif v then x / 2 else x) ^ 2))
          ((F (t + 1)).particles (a (t + 1) m))) ∧
        CanStart (F t).particles (fun x x' => Fl.fin (-(x' - bif v then x / 2 else x) ^ 2))
          (fun m => (F (t + 1)).particles (a (t + 1) m)) (fun m => (F (t + 1)).ancestors (a (t + 1) m)) := by
  obtain ⟨rng, h, _⟩ := exists_ideal_prefix
  have hlog : ∀ t i, ((F t).logWeights i).IsLog := fun t i => by
    have := hF t i
    revert this
    cases (F t).logWeights i <;> simp [Fl.IsFin, Fl.IsLog]
  exact ⟨rng, h, ⟨fun k => systematicIdx rng .cpu (F 4).logWeights 5 k, fun b =>
    ((measurable_systematicIdx h .cpu).comp (measurable_id.prodMk (measurable_const (a := (F 4).logWeights))))
      (measurableSet_singleton b), fun k => systematic_eq rng .cpu k _ _ 5⟩, fun a t _ =>
    ⟨⟨hlog t, 0, hF t 0⟩, fun m => ⟨hlog t, fun _ => trivial, 0, hF t 0, trivial⟩, fun m => trivial⟩⟩

end

end Cuthbert.SMC
