import Verif.Props.ParticleSmoother

/-!
# Properties: unbiased path estimates from the tracing smoother (C71)
-/

namespace Cuthbert.SMC
open MeasureTheory Set Resampling Spec
open scoped ENNReal

noncomputable section

variable {K X Inp : Type} {N n : ℕ} [MeasurableSpace K] {P : Measure K} {rng : Rng K}

/-- The random indices `I` pick `n` particles without bias. -/
structure UnbiasedIdx (P : Measure K) (n : ℕ) (I : K → (Fin N → Fl) → Fin n → Fin N) : Prop where
  measurable_idx : ∀ l b, MeasurableSet {k | I k l = b}
  average : ∀ l, IsLogits l → ∀ f : Fin N → ℝ≥0∞,
    ∫⁻ k, ∑ m, f (I k l m) ∂P = n * ∑ i, ENNReal.ofReal (nw l i) * f i

theorem unbiasedIdx_multinomial [NeZero N] (h : IdealRng rng P) (pf : Platform) (n : ℕ) :
    UnbiasedIdx (N := N) P n fun k l => multinomialIdx rng pf l n k where
  measurable_idx l b := ((measurable_multinomialIdx h pf).comp
    (measurable_id.prodMk (measurable_const (a := l)))) (measurableSet_singleton b)
  average l hl f := by
    obtain ⟨R, h1, h2⟩ := (multinomial_unbiased h pf hl id n).average f
    refine Eq.trans (lintegral_congr fun k => ?_) h2
    have h3 := Except.ok.inj ((multinomial_eq rng pf k l id n).symm.trans (h1 k))
    rw [← h3]
    rfl

theorem unbiasedIdx_systematic [NeZero N] (h : IdealRng rng P) (pf : Platform) (n : ℕ) :
    UnbiasedIdx (N := N) P n fun k l => systematicIdx rng pf l n k where
  measurable_idx l b := ((measurable_systematicIdx h pf).comp
    (measurable_id.prodMk (measurable_const (a := l)))) (measurableSet_singleton b)
  average l hl f := by
    obtain ⟨R, h1, h2⟩ := (systematic_unbiased h pf hl id n).average f
    refine Eq.trans (lintegral_congr fun k => ?_) h2
    have h3 := Except.ok.inj ((systematic_eq rng pf k l id n).symm.trans (h1 k))
    rw [← h3]
    rfl

theorem unbiasedIdx_killing [NeZero N] (h : IdealRng rng P) (pf : Platform) :
    UnbiasedIdx P N fun k l => killingIdx rng pf l k where
  measurable_idx l b := ((measurable_killingIdx h pf).comp
    (measurable_id.prodMk (measurable_const (a := l)))) (measurableSet_singleton b)
  average l hl f := by
    obtain ⟨R, h1, h2⟩ := (killing_unbiased h pf hl id).average f
    refine Eq.trans (lintegral_congr fun k => ?_) h2
    have h3 := Except.ok.inj ((killing_eq rng pf k l id).symm.trans (h1 k))
    rw [← h3]
    rfl

/-- The particles at all times of a run of the particle smoother are the paths `p`. -/
def SmootherReturns (rng : Prng K) (inputsOf : Except Err (PFState K X Inp N) → Inp)
    (dummy : Inp → Except Err Inp) (s : SmootherObj Inp K (Except Err (PFState K X Inp N)) (Except Err (PSState K X Inp N)))
    (F : ℕ → PFState K X Inp N) (us : List Inp) (k : K) (p : Fin n → ℕ → X) : Prop :=
  ∃ (keys : ℕ → K) (anc : ℕ → Fin n → Fin N) (inputs : ℕ → Inp) (weights : ℕ → Fin n → Fl),
    (smoother rng inputsOf dummy s ((List.range (us.length + 1)).map fun t => .ok (F t)) (some us) false
      (some k)).result =
      .ok ((List.range (us.length + 1)).map fun t => .ok ⟨n, keys t, fun m => p m t, anc t, inputs t, weights t⟩)

/-- C71: run a particle filter whose estimates are unbiased (C53) and then, with an independent key, the
tracing smoother with `n` smoother particles. The evidence estimate times the average of any function of
the smoothed paths is an unbiased estimate of the unnormalised Feynman-Kac expectation of that
function. -/
theorem tracing_smoother_unbiased [NeZero N] [NeZero n] [MeasurableSpace X] (h : IdealRng rng P)
    {mdl : FKModel K X Inp} {R' : Resampler K N X} {dummy : X} {u0 u : Inp} {us : List Inp}
    (hrun : UnbiasedRun rng P mdl R' dummy u0 (u :: us)) {pf : Platform} {R : Resampler K N X}
    (hR : R = multinomial rng pf ∨ R = systematic rng pf ∨ n = N ∧ R = killing rng pf)
    (inputsOf : Except Err (PFState K X Inp N) → Inp) (dummyInp : Inp → Except Err Inp)
    (logPotential : X → X → Inp → Fl) {d d' : Inp} (hd : dummyInp u = .ok d) (hd' : dummyInp d = .ok d') :
    ∃ (S : K → ℕ → PFState K X Inp N) (p : K → K → Fin n → ℕ → X),
      (∀ k, filter rng.toPrng (particleFilter rng.toPrng mdl dummy N R') (u0 :: u :: us) false (some k) =
        ⟨false, .ok ((List.range (us.length + 2)).map fun t => .ok (S k t))⟩) ∧
      (∀ k k', SmootherReturns rng.toPrng inputsOf dummyInp
        (particleSmoother rng.toPrng dummyInp logPotential tracing R n) (S k) (u :: us) k' (p k k')) ∧
      ∀ f : (ℕ → X) → ℝ≥0∞, Measurable f →
        ∫⁻ k, ∫⁻ k', ENNReal.ofReal (S k (us.length + 1)).logZ.lik * ((∑ m, f (p k k' m)) / n) ∂P ∂P =
          fkExp (mdl.init P u0) ((u :: us).map (mdl.step P)) f := by
  obtain ⟨S, h1, h2, h3⟩ := hrun
  obtain ⟨I, hI, hRI⟩ : ∃ I : K → (Fin N → Fl) → Fin n → Fin N, UnbiasedIdx P n I ∧
      ∀ k l pos, R k l pos n = .ok ⟨I k l, fun _ => 0, fun m => pos (I k l m)⟩ := by
    rcases hR with rfl | rfl | ⟨rfl, rfl⟩
    · exact ⟨_, unbiasedIdx_multinomial h pf n, fun k l pos => multinomial_eq rng pf k l pos n⟩
    · exact ⟨_, unbiasedIdx_systematic h pf n, fun k l pos => systematic_eq rng pf k l pos n⟩
    · exact ⟨_, unbiasedIdx_killing h pf, fun k l pos => killing_eq rng pf k l pos⟩
  refine ⟨S, fun k k' m => ancestralPath (fun s => (S k s).particles) (fun s => (S k s).ancestors)
    (us.length + 1) (I (rng.nth (rng.nth k' (us.length + 2) 0) 2 1) (S k (us.length + 1)).logWeights m),
    h1, fun k k' => ?_, fun f hf => ?_⟩
  · obtain ⟨keys, inputs, weights, h4, -⟩ := tracing_smoother_paths rng.toPrng inputsOf dummyInp logPotential R n
      (S k) u us k' hd hd' rfl (hRI _ _ _) fun m => rfl
    exact ⟨_, _, _, _, h4⟩
  · have h5 := h3 (us.length + 1) (by simp) f hf
    rw [show (u :: us).take (us.length + 1) = u :: us by simp] at h5
    rw [← h5.2]
    refine lintegral_congr fun k => ?_
    rw [pathEst]
    rcases (h2 k (us.length + 1) (by simp)).2.2 with h6 | h6
    · obtain ⟨g, hg⟩ : ∃ g : Fin N → ℝ≥0∞, g = fun i => f (ancestralPath (fun s => (S k s).particles)
        (fun s => (S k s).ancestors) (us.length + 1) i) := ⟨_, rfl⟩
      have h7 : Measurable fun κ => ∑ m, g (I κ (S k (us.length + 1)).logWeights m) := by
        have h8 : Measurable fun κ => I κ (S k (us.length + 1)).logWeights :=
          measurable_to_countable' fun b => hI.measurable_idx _ b
        exact (measurable_of_finite fun b : Fin n → Fin N => ∑ m, g (b m)).comp h8
      have h9 := hI.average _ h6 g
      have h10 : ∫⁻ k', ∑ m, g (I (rng.nth (rng.nth k' (us.length + 2) 0) 2 1) (S k (us.length + 1)).logWeights m) ∂P =
          ∫⁻ κ, ∑ m, g (I κ (S k (us.length + 1)).logWeights m) ∂P :=
        ((h.measurePreserving_nth 2 1).comp (h.measurePreserving_nth (us.length + 2) 0)).lintegral_comp h7
      have h11 : Measurable fun k' =>
          ∑ m, g (I (rng.nth (rng.nth k' (us.length + 2) 0) 2 1) (S k (us.length + 1)).logWeights m) :=
        h7.comp ((h.measurePreserving_nth 2 1).comp (h.measurePreserving_nth (us.length + 2) 0)).measurable
      simp only [hg] at h9 h10 h11
      simp only [div_eq_mul_inv]
      rw [lintegral_const_mul _ (h11.mul_const _), lintegral_mul_const _ h11, h10, h9, mul_comm (n : ℝ≥0∞), mul_assoc,
        ENNReal.mul_inv_cancel (by exact_mod_cast NeZero.ne n) (ENNReal.natCast_ne_top n), mul_one]
    · rw [h6]
      simp [Fl.lik]

/-- The hypotheses of C71: 5 filter and 7 smoother particles, killing and multinomial resampling. -/
example : ∃ rng : Rng Key, ∃ (S : Key → ℕ → PFState Key ℝ ℝ 5) (p : Key → Key → Fin 7 → ℕ → ℝ),
    (∀ k k', SmootherReturns rng.toPrng (fun _ => 0) (fun _ => .ok 0)
      (particleSmoother rng.toPrng (fun _ => .ok 0) (exampleModel rng).logPotential tracing
        (multinomial rng .cpu) 7) (S k) [1, 2] k' (p k k')) ∧
    ∫⁻ k, ∫⁻ k', ENNReal.ofReal (S k 2).logZ.lik * ((∑ m, ENNReal.ofReal (p k k' m 0)) / (7 : ℕ)) ∂keyLaw ∂keyLaw =
      fkExp ((exampleModel rng).init keyLaw 0) ([1, 2].map ((exampleModel rng).step keyLaw)) fun p =>
        ENNReal.ofReal (p 0) := by
  obtain ⟨rng, h1, h2⟩ := exists_ideal_prefix
  have h3 : UnbiasedRun (N := 5) rng keyLaw (exampleModel rng) (killing rng .cpu) 0 0 [1, 2] :=
    killing_filter_unbiased h1 (.inr h2) .cpu h1.uniform0.measurable _
      (fun u _ => exampleModel_regular h1 u) _
  obtain ⟨S, p, -, h5, h6⟩ := tracing_smoother_unbiased (n := 7) h1 h3 (pf := .cpu) (.inl rfl) (fun _ => 0)
    (fun _ => .ok 0) (exampleModel rng).logPotential rfl rfl
  exact ⟨rng, S, p, h5, h6 _ (ENNReal.measurable_ofReal.comp (measurable_pi_apply 0))⟩

end

end Cuthbert.SMC
