import Verif.Lemmas.ParticleSmoother
import Verif.Props.ParticleFilter
import Verif.Props.ResamplingLaw

/-!
# Properties: particle smoothers (C55, C56, C58, C71)
-/

namespace Cuthbert.SMC
open MeasureTheory Set Resampling Spec
open scoped ENNReal

noncomputable section

variable {K X Inp : Type} {N n : ℕ}

/-! ## C55 -/

/-- The indices of the tracing sampler. -/
def tracingIdx : BackIdx K X N := fun _ _ _ _ _ _ anc => anc

theorem samplesBy_tracing : SamplesBy (K := K) (X := X) (N := N) tracing tracingIdx :=
  fun _ _ _ _ _ _ _ => rfl

theorem backIdx_tracing (F : ℕ → PFState K X Inp N) (ld : ℕ → X → X → Fl) (keys : ℕ → K) (T : ℕ)
    (J : Fin n → Fin N) (m : Fin n) : ∀ s ≤ T, ∀ t, t ≤ T - s →
      lineage (fun t => (F t).ancestors) (T - s) (backIdx tracingIdx F ld keys T J s m) t =
        lineage (fun t => (F t).ancestors) T (J m) t
  | 0, _, t, _ => rfl
  | s + 1, hs, t, ht => by
    rw [← backIdx_tracing F ld keys T J m s (by omega) t (by omega)]
    have h : T - s = (T - (s + 1)) + 1 := by omega
    rw [h, lineage, if_pos (by omega), ← h]
    rfl

theorem backIdx_tracing_eq (F : ℕ → PFState K X Inp N) (ld : ℕ → X → X → Fl) (keys : ℕ → K) (T : ℕ)
    (J : Fin n → Fin N) (m : Fin n) (t : ℕ) (ht : t ≤ T) :
    backIdx tracingIdx F ld keys T J (T - t) m = lineage (fun t => (F t).ancestors) T (J m) t := by
  rw [← backIdx_tracing F ld keys T J m (T - t) (by omega) t (by omega), lineage_self _ _ _ _ (by omega)]

/-- C55: for every sequence of filter states (whether or not a filter produced it) the tracing smoother
returns the ancestral paths of the particles that the resampling function picked at the final time,
with equal weights before the final time. -/
theorem tracing_smoother_paths (rng : Prng K) (inputsOf : Except Err (PFState K X Inp N) → Inp)
    (dummy : Inp → Except Err Inp) (logPotential : X → X → Inp → Fl) (R : Resampler K N X) (n : ℕ)
    (F : ℕ → PFState K X Inp N) (u : Inp) (us : List Inp) (k : K) {d d' : Inp} (hd : dummy u = .ok d)
    (hd' : dummy d = .ok d') {r : Resampled N n X} {T : ℕ} (hT : T = us.length + 1)
    (hr : R (rng.nth (rng.nth k (T + 1) 0) 2 1) (F T).logWeights (F T).particles n = .ok r)
    (hpos : ∀ m, r.positions m = (F T).particles (r.idx m)) :
    ∃ (keys : ℕ → K) (inputs : ℕ → Inp) (weights : ℕ → Fin n → Fl),
      (smoother rng inputsOf dummy (particleSmoother rng dummy logPotential tracing R n)
        ((List.range (T + 1)).map fun t => .ok (F t)) (some (u :: us)) false (some k)).result =
        .ok ((List.range (T + 1)).map fun t => .ok ⟨n, keys t,
          fun m => ancestralPath (fun s => (F s).particles) (fun s => (F s).ancestors) T (r.idx m) t,
          fun m => (F t).ancestors (lineage (fun s => (F s).ancestors) T (r.idx m) t), inputs t,
          weights t⟩) ∧
      (∀ t < T, ∀ m, weights t m = -Fl.log (Fl.fin n)) ∧ weights T = r.logits := by
  subst hT
  obtain ⟨q, hq⟩ : ∃ q : PSState K X Inp N, q = ⟨n, rng.nth (rng.nth k (us.length + 2) 0) 2 0, r.positions,
    fun m => (F (us.length + 1)).ancestors (r.idx m), d', r.logits⟩ := ⟨_, rfl⟩
  refine ⟨fun t => if t < us.length + 1 then backKey rng k (us.length + 1) t else q.key,
    fun t => (u :: us)[t]?.getD d', fun t => if t < us.length + 1 then fun _ => -Fl.log (Fl.fin n) else
      r.logits, ?_, fun t ht m => by simp only [if_pos ht], by simp only [lt_irrefl, if_false]⟩
  rw [smoother_ps_eq rng inputsOf dummy logPotential samplesBy_tracing R n F u us k hd hd' hr hpos, ← hq]
  refine congrArg Except.ok (List.map_congr_left fun t ht => ?_)
  have ht' : t < us.length + 2 := by simpa using ht
  congr 1
  by_cases h : t < us.length + 1
  · rw [psAt, dif_pos (by simpa using h)]
    simp only [if_pos h, List.length_cons]
    have h1 := fun m => backIdx_tracing_eq F (usedDensity logPotential (u :: us) d') (backKey rng k (us.length + 1))
      (us.length + 1) r.idx m t (by omega)
    have h2 : (u :: us)[t]?.getD d' = (u :: us)[t]'(by simpa using h) := by
      rw [List.getElem?_eq_getElem (by simpa using h), Option.getD_some]
    simp only [h1, h2, ancestralPath, min_eq_left (show t ≤ us.length + 1 by omega)]
  · have h1 : t = us.length + 1 := by omega
    subst h1
    rw [psAt, dif_neg (by simp), hq]
    simp only [lt_irrefl, if_false]
    have h2 : (u :: us)[us.length + 1]?.getD d' = d' := by
      rw [List.getElem?_eq_none (by simp), Option.getD_none]
    have h3 : r.positions = fun m => (F (us.length + 1)).particles (r.idx m) := funext hpos
    simp only [h2, h3, ancestralPath_self, lineage_self _ _ _ _ le_rfl]

/-- The hypotheses of C55: a run over three steps that picks the particles `1, 1, 0`. -/
example : ∃ (F : ℕ → PFState Unit ℕ Bool 2) (R : Resampler Unit 2 ℕ) (r : Resampled 2 3 ℕ),
    (∀ k, R k (F 3).logWeights (F 3).particles 3 = .ok r) ∧
    (∀ m, r.positions m = (F 3).particles (r.idx m)) ∧
    ancestralPath (fun s => (F s).particles) (fun s => (F s).ancestors) 3 (r.idx 0) 0 = 0 ∧
    ancestralPath (fun s => (F s).particles) (fun s => (F s).ancestors) 3 (r.idx 0) 2 = 21 := by
  refine ⟨fun t => ⟨(), fun i => 10 * t + i, fun _ => 0, if t = 1 then fun _ => 0 else id, true, 0⟩,
    fun _ _ pos n => .ok ⟨fun m => if m.val < 2 then 1 else 0, fun _ => 0,
      fun m => pos (if m.val < 2 then 1 else 0)⟩, _, fun k => rfl, fun m => rfl, ?_, ?_⟩ <;>
  simp [ancestralPath, lineage]

/-! ## C56 -/

/-- The indices of the exact sampler. -/
def exactIdx [NeZero N] (rng : Rng K) : BackIdx K X N := fun k x0 n x1 l ld _ m =>
  rng.categorical (rng.nth k n m) N (exactLogWeights x0 (x1 m) l ld)

theorem samplesBy_exact [NeZero N] (rng : Rng K) : SamplesBy (X := X) (N := N) (exact rng) (exactIdx rng) :=
  fun _ _ _ _ _ _ _ => rfl

/-- The probability that exact backward sampling should give to ancestor `j` of `x1`:
`w_j p(x_1 | x_0^j) / ∑_i w_i p(x_1 | x_0^i)`. -/
def backwardProb (x0 : Fin N → X) (l : Fin N → Fl) (ld : X → X → Fl) (x1 : X) (j : Fin N) : ℝ :=
  (l j).lik * (ld (x0 j) x1).lik / ∑ i, (l i).lik * (ld (x0 i) x1).lik

/-- The backward distribution for `x1` exists: log-weights and log densities are numbers or `-∞`, and
some particle has positive weight and positive density. -/
def CanSample (x0 : Fin N → X) (l : Fin N → Fl) (ld : X → X → Fl) (x1 : X) : Prop :=
  (∀ j, (l j).IsLog) ∧ (∀ j, (ld (x0 j) x1).IsLog) ∧ ∃ j, (l j).IsFin ∧ (ld (x0 j) x1).IsFin

theorem CanSample.isLogits {x0 : Fin N → X} {l : Fin N → Fl} {ld : X → X → Fl} {x1 : X}
    (h : CanSample x0 l ld x1) : IsLogits fun j => l j + ld (x0 j) x1 :=
  ⟨fun j => (h.1 j).add (h.2.1 j), h.2.2.imp fun _ hj => hj.1.add hj.2⟩

theorem CanSample.nw_eq {x0 : Fin N → X} {l : Fin N → Fl} {ld : X → X → Fl} {x1 : X}
    (h : CanSample x0 l ld x1) (j : Fin N) :
    nw (fun j => l j + ld (x0 j) x1) j = backwardProb x0 l ld x1 j := by
  simp only [nw, backwardProb, Fl.lik_add (h.1 _) (h.2.1 _)]

theorem exactLogWeights_isLogits {x0 : Fin N → X} {l : Fin N → Fl} {ld : X → X → Fl} {x1 : X}
    (h : CanSample x0 l ld x1) : IsLogits (exactLogWeights x0 x1 l ld) ∧
      ∀ j, nw (exactLogWeights x0 x1 l ld) j = backwardProb x0 l ld x1 j := by
  have h1 := h.isLogits
  have h2 := logsumexp_eq h1
  unfold exactLogWeights
  simp only
  rw [h2]
  refine ⟨⟨fun j => (h1.1 j).sub_fin _, ?_⟩, fun j => ?_⟩
  · obtain ⟨j, hj⟩ := h1.2
    obtain ⟨a, ha⟩ : ∃ a : ℝ, l j + ld (x0 j) x1 = Fl.fin a := by
      have hj' : (l j + ld (x0 j) x1).IsFin := hj
      generalize l j + ld (x0 j) x1 = b at hj'
      cases b with
      | fin r => exact ⟨r, rfl⟩
      | _ => exact hj'.elim
    exact ⟨j, by dsimp only; rw [ha]; trivial⟩
  · rw [← h.nw_eq]
    simp only [nw, Fl.lik_sub_fin (h1.1 _)]
    rw [← Finset.sum_div, div_div_div_cancel_right₀ (Real.exp_pos _).ne']

section law

variable [MeasurableSpace K] {P : Measure K} {rng : Rng K}

theorem _root_.Cuthbert.IdealRng.measurePreserving_nth (h : IdealRng rng P) (n : ℕ) (i : Fin n) :
    MeasurePreserving (fun k => rng.nth k n i) P P := by
  have := h.prob
  exact (measurePreserving_eval (fun _ : Fin n => P) i).comp (h.split n)

theorem measurableSet_categorical [NeZero N] (h : IdealRng rng P) (l : Fin N → Fl) (i : Fin N) :
    MeasurableSet {k | rng.categorical k N l = i} :=
  ((h.categorical_measurable N).comp (measurable_id.prodMk (measurable_const (a := l))))
    (measurableSet_singleton i)

theorem exactIdx_law [NeZero N] (h : IdealRng rng P) (x0 : Fin N → X) (x1 : Fin n → X) (l : Fin N → Fl)
    (ld : X → X → Fl) (hs : ∀ m, CanSample x0 l ld (x1 m)) (anc a : Fin n → Fin N) :
    P {k | exactIdx rng k x0 n x1 l ld anc = a} = ∏ m, ENNReal.ofReal (backwardProb x0 l ld (x1 m) (a m)) := by
  have := h.prob
  have h1 : {k | exactIdx rng k x0 n x1 l ld anc = a} = (fun k (i : Fin n) => rng.nth k n i) ⁻¹'
      (Set.pi univ fun m => {k | rng.categorical k N (exactLogWeights x0 (x1 m) l ld) = a m}) := by
    ext k
    simp only [mem_ofPred_eq, mem_preimage, mem_univ_pi, funext_iff, exactIdx]
  rw [h1, (h.split n).measure_preimage
    (MeasurableSet.univ_pi fun m => measurableSet_categorical h _ _).nullMeasurableSet, Measure.pi_pi]
  refine Finset.prod_congr rfl fun m _ => ?_
  obtain ⟨h2, h3⟩ := exactLogWeights_isLogits (hs m)
  rw [h.categorical N _ h2, h3]

theorem measurableSet_exactIdx [NeZero N] (h : IdealRng rng P) (x0 : Fin N → X) (x1 : Fin n → X) (l : Fin N → Fl)
    (ld : X → X → Fl) (anc a : Fin n → Fin N) :
    MeasurableSet {k | exactIdx rng k x0 n x1 l ld anc = a} := by
  have h1 : {k | exactIdx rng k x0 n x1 l ld anc = a} = (fun k (i : Fin n) => rng.nth k n i) ⁻¹'
      (Set.pi univ fun m => {k | rng.categorical k N (exactLogWeights x0 (x1 m) l ld) = a m}) := by
    ext k
    simp only [mem_ofPred_eq, mem_preimage, mem_univ_pi, funext_iff, exactIdx]
  rw [h1]
  exact (h.split n).measurable (MeasurableSet.univ_pi fun m => measurableSet_categorical h _ _)

/-- C56: exact backward sampling never raises, returns particles with their indices, and draws the
ancestors of the different `x_1` independently, ancestor `j` with probability proportional to
`w_j p(x_1 | x_0^j)`. -/
theorem exact_backward_law [NeZero N] (h : IdealRng rng P) (x0 : Fin N → X) (x1 : Fin n → X) (l : Fin N → Fl)
    (ld : X → X → Fl) (hs : ∀ m, CanSample x0 l ld (x1 m)) (anc : Fin n → Fin N) :
    ∃ J : K → Fin n → Fin N,
      (∀ k, exact rng k x0 n x1 l ld anc = .ok (fun m => x0 (J k m), J k)) ∧
      ∀ a, P {k | J k = a} = ∏ m, ENNReal.ofReal (backwardProb x0 l ld (x1 m) (a m)) :=
  ⟨_, fun k => samplesBy_exact rng k x0 n x1 l ld anc, exactIdx_law h x0 x1 l ld hs anc⟩

/-- The hypothesis of C56: a particle of weight zero, a forbidden transition and one that is
possible. -/
example : CanSample (fun j : Fin 3 => (j : ℝ)) ![Fl.ninf, Fl.fin 2, Fl.fin (-1)]
    (fun x x' => if x' < x + 1 then Fl.fin (x * x') else Fl.ninf) (5 / 2) := by
  refine ⟨fun j => ?_, fun j => ?_, 2, by simp [Fl.IsFin], ?_⟩
  · fin_cases j <;> simp [Fl.IsLog]
  · dsimp only
    split_ifs <;> trivial
  · dsimp only
    rw [if_pos (by norm_num)]
    trivial

/-! ### The law of whole trajectories -/

omit [MeasurableSpace K] in
theorem backIdx_eq_iff {B : BackIdx K X N} {F : ℕ → PFState K X Inp N} {ld : ℕ → X → X → Fl} {keys : ℕ → K}
    {T : ℕ} {J : Fin n → Fin N} (a : ℕ → Fin n → Fin N) :
    (∀ t ≤ T, backIdx B F ld keys T J (T - t) = a t) ↔ J = a T ∧ ∀ t < T,
      B (keys t) (F t).particles n (fun m => (F (t + 1)).particles (a (t + 1) m)) (F t).logWeights (ld t)
        (fun m => (F (t + 1)).ancestors (a (t + 1) m)) = a t := by
  have step : ∀ t < T, backIdx B F ld keys T J (T - t) = B (keys t) (F t).particles n
      (fun m => (F (t + 1)).particles (backIdx B F ld keys T J (T - (t + 1)) m)) (F t).logWeights (ld t)
      (fun m => (F (t + 1)).ancestors (backIdx B F ld keys T J (T - (t + 1)) m)) := by
    intro t ht
    have h1 : T - t = (T - (t + 1)) + 1 := by omega
    rw [h1, backIdx]
    have h2 : T - (T - (t + 1) + 1) = t := by omega
    have h3 : T - (T - (t + 1)) = t + 1 := by omega
    rw [h2, h3]
  constructor
  · intro h
    refine ⟨?_, fun t ht => ?_⟩
    · have := h T le_rfl
      rwa [Nat.sub_self] at this
    · rw [← h t ht.le, step t ht, h (t + 1) ht]
  · rintro ⟨h0, h1⟩
    have key : ∀ s ≤ T, backIdx B F ld keys T J s = a (T - s) := by
      intro s
      induction s with
      | zero => exact fun _ => h0
      | succ s ih =>
        intro hs
        have ih := ih (by omega)
        have h2 := step (T - (s + 1)) (by omega)
        rw [show T - (T - (s + 1)) = s + 1 by omega, show T - (s + 1) + 1 = T - s by omega,
          show T - (T - s) = s by omega, ih] at h2
        rw [h2]
        have h3 := h1 (T - (s + 1)) (by omega)
        rw [show T - (s + 1) + 1 = T - s by omega] at h3
        exact h3
    intro t ht
    rw [key _ (by omega), show T - (T - t) = t by omega]

/-- The law of the trajectories of indices for the exact sampler. -/
theorem exact_trajectory_law [NeZero N] (h : IdealRng rng P) (F : ℕ → PFState K X Inp N)
    (ld : ℕ → X → X → Fl) (T : ℕ) {I : K → Fin n → Fin N} (hI : ∀ b, MeasurableSet {k | I k = b})
    (a : ℕ → Fin n → Fin N) (hs : ∀ t < T, ∀ m, CanSample (F t).particles (F t).logWeights (ld t)
      ((F (t + 1)).particles (a (t + 1) m))) :
    P {k | ∀ t ≤ T, backIdx (exactIdx rng) F ld (backKey rng.toPrng k T) T
        (I (rng.nth (rng.nth k (T + 1) 0) 2 1)) (T - t) = a t} =
      P {k | I k = a T} * ∏ t ∈ Finset.range T, ∏ m, ENNReal.ofReal (backwardProb (F t).particles
        (F t).logWeights (ld t) ((F (t + 1)).particles (a (t + 1) m)) (a t m)) := by
  have := h.prob
  have h1 : {k | ∀ t ≤ T, backIdx (exactIdx rng) F ld (backKey rng.toPrng k T) T
        (I (rng.nth (rng.nth k (T + 1) 0) 2 1)) (T - t) = a t} =
      (fun k (i : Fin (T + 1)) => rng.nth k (T + 1) i) ⁻¹' (Set.pi univ (Fin.cons
        {k | I (rng.nth k 2 1) = a T} fun t : Fin T => {k | exactIdx rng k (F t).particles n
          (fun m => (F (t + 1)).particles (a (t + 1) m)) (F t).logWeights (ld t)
          (fun m => (F (t + 1)).ancestors (a (t + 1) m)) = a t})) := by
    ext k
    simp only [mem_ofPred_eq, backIdx_eq_iff, mem_preimage, mem_univ_pi, Fin.forall_fin_succ, Fin.cons_zero,
      Fin.cons_succ]
    refine and_congr_right fun _ => ⟨fun h2 t => ?_, fun h2 t ht => ?_⟩
    · have h3 := h2 t t.2
      rw [backKey, dif_pos t.2] at h3
      exact h3
    · have h3 := h2 ⟨t, ht⟩
      rw [backKey, dif_pos ht]
      exact h3
  have hm0 : MeasurableSet {k | I (rng.nth k 2 1) = a T} := h.measurable_nth 2 1 (hI (a T))
  rw [h1, (h.split (T + 1)).measure_preimage, Measure.pi_pi, Fin.prod_univ_succ]
  · congr 1
    · exact (h.measurePreserving_nth 2 1).measure_preimage (hI (a T)).nullMeasurableSet
    · rw [Finset.prod_range]
      refine Finset.prod_congr rfl fun t _ => ?_
      exact exactIdx_law h _ _ _ _ (hs t t.2) _ _
  · refine (MeasurableSet.univ_pi fun i => ?_).nullMeasurableSet
    refine Fin.cases ?_ (fun t => ?_) i
    · exact hm0
    · exact measurableSet_exactIdx h _ _ _ _ _ _

/-- C56 for a whole run of the smoother, with any sequence of filter states. The trajectories that are
not driven by the inputs have the law of backward simulation: the final indices are those of the resampling
function, and given the later ones the indices at time `t` are independent draws from the backward
probabilities. Missing: for log potentials that depend on the inputs this is false, see
`smoother_uses_wrong_inputs`. -/
theorem exact_smoother_law_partial [NeZero N] (h : IdealRng rng P)
    (inputsOf : Except Err (PFState K X Inp N) → Inp) (dummy : Inp → Except Err Inp) (lp : X → X → Fl)
    (R : Resampler K N X) (n : ℕ) (F : ℕ → PFState K X Inp N) (u : Inp) (us : List Inp) {d d' : Inp}
    (hd : dummy u = .ok d) (hd' : dummy d = .ok d') {T : ℕ} (hT : T = us.length + 1)
    {I : K → Fin n → Fin N} {L : K → Fin n → Fl} (hI : ∀ b, MeasurableSet {k | I k = b})
    (hR : ∀ k, R k (F T).logWeights (F T).particles n = .ok ⟨I k, L k, fun m => (F T).particles (I k m)⟩) :
    ∃ J : K → ℕ → Fin n → Fin N,
      (∀ k, ∃ (keys : ℕ → K) (inputs : ℕ → Inp) (weights : ℕ → Fin n → Fl),
        (smoother rng.toPrng inputsOf dummy
          (particleSmoother rng.toPrng dummy (fun x x' _ => lp x x') (exact rng) R n)
          ((List.range (T + 1)).map fun t => .ok (F t)) (some (u :: us)) false (some k)).result =
          .ok ((List.range (T + 1)).map fun t => .ok ⟨n, keys t, fun m => (F t).particles (J k t m),
            fun m => (F t).ancestors (J k t m), inputs t, weights t⟩)) ∧
      ∀ a : ℕ → Fin n → Fin N, (∀ t < T, ∀ m, CanSample (F t).particles (F t).logWeights lp
          ((F (t + 1)).particles (a (t + 1) m))) →
        P {k | ∀ t ≤ T, J k t = a t} = P {k | I k = a T} * ∏ t ∈ Finset.range T, ∏ m,
          ENNReal.ofReal (backwardProb (F t).particles (F t).logWeights lp
            ((F (t + 1)).particles (a (t + 1) m)) (a t m)) := by
  subst hT
  refine ⟨fun k t => backIdx (exactIdx rng) F (fun _ => lp) (backKey rng.toPrng k (us.length + 1)) (us.length + 1)
        (I (rng.nth (rng.nth k (us.length + 2) 0) 2 1)) (us.length + 1 - t), fun k => ?_, fun a ha =>
    exact_trajectory_law h F (fun _ => lp) (us.length + 1) hI a ha⟩
  have h1 := smoother_ps_eq rng.toPrng inputsOf dummy (fun x x' _ => lp x x') (samplesBy_exact rng) R n F u us k
    hd hd' (hR _) fun _ => rfl
  refine ⟨fun t => if t < us.length + 1 then backKey rng.toPrng k (us.length + 1) t else
      rng.nth (rng.nth k (us.length + 2) 0) 2 0,
    fun t => (u :: us)[t]?.getD d', fun t => if t < us.length + 1 then fun _ => -Fl.log (Fl.fin n) else
      L (rng.nth (rng.nth k (us.length + 2) 0) 2 1), ?_⟩
  · rw [h1]
    refine congrArg Except.ok (List.map_congr_left fun t ht => ?_)
    have ht' : t < us.length + 2 := by simpa using ht
    congr 1
    by_cases h : t < us.length + 1
    · rw [psAt, dif_pos (by simpa using h)]
      simp only [if_pos h, List.length_cons]
      have h2 : (u :: us)[t]?.getD d' = (u :: us)[t]'(by simpa using h) := by
        rw [List.getElem?_eq_getElem (by simpa using h), Option.getD_some]
      rw [h2]
      rfl
    · have h3 : t = us.length + 1 := by omega
      subst h3
      rw [psAt, dif_neg (by simp)]
      simp only [lt_irrefl, if_false, Nat.sub_self]
      have h2 : (u :: us)[us.length + 1]?.getD d' = d' := by
        rw [List.getElem?_eq_none (by simp), Option.getD_none]
      rw [h2]
      rfl

/-- The hypotheses of `exact_smoother_law_partial` are met by systematic resampling, with any filter
states. -/
example (F : ℕ → PFState Key ℝ Bool 3) : ∃ rng : Rng Key, IdealRng rng keyLaw ∧
    ∃ I : Key → Fin 5 → Fin 3, (∀ b, MeasurableSet {k | I k = b}) ∧
      ∀ k, systematic rng .cpu k (F 4).logWeights (F 4).particles 5 =
        .ok ⟨I k, fun _ => 0, fun m => (F 4).particles (I k m)⟩ :=
  let ⟨rng, h, _⟩ := exists_ideal_prefix
  ⟨rng, h, fun k => systematicIdx rng .cpu (F 4).logWeights 5 k, fun b =>
    ((measurable_systematicIdx h .cpu).comp (measurable_id.prodMk
      (measurable_const (a := (F 4).logWeights)))) (measurableSet_singleton b),
    fun k => systematic_eq rng .cpu k _ _ 5⟩

/-! ## C58 -/

/-- The particles are the two truth values. -/
def boolState (k : K) : PFState K Bool Bool 2 := ⟨k, ![false, true], fun _ => 0, id, true, 0⟩

/-- The only possible ancestor is the input. -/
def boolPotential (x _ u : Bool) : Fl := if x = u then 0 else Fl.ninf

omit [MeasurableSpace K] in
theorem boolPotential_canSample (k : K) (u x1 : Bool) :
    CanSample (boolState k).particles (boolState k).logWeights (fun x x' => boolPotential x x' u) x1 := by
  refine ⟨fun _ => trivial, fun j => ?_, if u then 1 else 0, trivial, ?_⟩
  · simp only [boolPotential]
    split_ifs <;> trivial
  · cases u <;> simp [boolPotential, boolState] <;> trivial

theorem exact_bool (h : IdealRng rng P) (k₀ : K) (u : Bool) (x1 : Fin n → Bool) (anc : Fin n → Fin 2) :
    ∀ᵐ k ∂P, ∀ m, (boolState k₀).particles (exactIdx rng k (boolState k₀).particles n x1
      (boolState k₀).logWeights (fun x x' => boolPotential x x' u) anc m) = u := by
  have := h.prob
  have key : ∀ᵐ k ∂P, ¬ ∃ m, (boolState k₀).particles (exactIdx rng k (boolState k₀).particles n x1
      (boolState k₀).logWeights (fun x x' => boolPotential x x' u) anc m) ≠ u := by
    rw [ae_iff]
    simp only [not_not]
    refine measure_mono_null (t := ⋃ a ∈ (Finset.univ.filter fun a : Fin n → Fin 2 =>
      ∃ m, (boolState k₀).particles (a m) ≠ u), {k | exactIdx rng k (boolState k₀).particles n x1
      (boolState k₀).logWeights (fun x x' => boolPotential x x' u) anc = a}) ?_ ?_
    · intro k hk
      simp only [mem_iUnion]
      exact ⟨_, by simpa using hk, rfl⟩
    · refine (measure_biUnion_null_iff (Finset.countable_toSet _)).mpr fun a ha => ?_
      obtain ⟨m, hm⟩ := (Finset.mem_filter.mp (Finset.mem_coe.mp ha)).2
      rw [exactIdx_law h _ _ _ _ (fun m => boolPotential_canSample k₀ u (x1 m))]
      refine Finset.prod_eq_zero (Finset.mem_univ m) ?_
      rw [backwardProb, boolPotential, if_neg hm]
      simp [Fl.lik]
  filter_upwards [key] with k hk m
  by_contra h1
  exact hk ⟨m, h1⟩

/-- C58 is false of the code. In a model in which the input `us[t]` of the transition `t → t + 1` decides
which particle at time `t` is the only possible ancestor, exact backward sampling should return the particles
`us[t]` (and does so when it is called with this input, see `exact_bool`). In the smoother it almost surely
returns the input `us[t + 1]` of the next transition instead, and at the last transition the filling value
(`False` for booleans). -/
theorem smoother_uses_wrong_inputs (h : IdealRng rng P) (k₀ : K)
    (inputsOf : Except Err (PFState K Bool Bool 2) → Bool) (pf : Platform) (n : ℕ) (us : List Bool) (hus : us ≠ []) :
    ∀ᵐ k ∂P, ∃ states, (smoother rng.toPrng inputsOf (fun _ => .ok false)
        (particleSmoother rng.toPrng (fun _ => .ok false) boolPotential (exact rng) (systematic rng pf) n)
        (List.replicate (us.length + 1) (.ok (boolState k₀))) (some us) false (some k)).result = .ok states ∧
      ∀ t < us.length, ∃ keys anc inputs weights, states[t]? = some (.ok ⟨n, keys,
        fun _ => us[t + 1]?.getD false, anc, inputs, weights⟩) := by
  have := h.prob
  obtain ⟨u, us, rfl⟩ : ∃ u us', us = u :: us' := by
    cases us with
    | nil => exact absurd rfl hus
    | cons u us => exact ⟨u, us, rfl⟩
  have h1 : ∀ᵐ k ∂P, ∀ t : Fin (us.length + 1), ∀ (x1 : Fin n → Bool) (anc : Fin n → Fin 2) (v : Bool), ∀ m,
      (boolState k₀).particles (exactIdx rng (rng.nth k (us.length + 2) t.succ) (boolState k₀).particles n x1
        (boolState k₀).logWeights (fun x x' => boolPotential x x' v) anc m) = v := by
    rw [ae_all_iff]
    intro t
    simp only [ae_all_iff]
    intro x1 anc v
    have h2 := exact_bool h k₀ v x1 anc
    have h3 := (h.measurePreserving_nth (us.length + 2) t.succ).quasiMeasurePreserving.ae h2
    simpa only [ae_all_iff] using h3
  filter_upwards [h1] with k hk
  obtain ⟨states, hstates⟩ : ∃ states, (smoother rng.toPrng inputsOf (fun _ => .ok false)
        (particleSmoother rng.toPrng (fun _ => .ok false) boolPotential (exact rng) (systematic rng pf) n)
        (List.replicate ((u :: us).length + 1) (.ok (boolState k₀))) (some (u :: us)) false (some k)).result =
        .ok states ∧ states = _ := by
    have h2 := smoother_ps_eq rng.toPrng inputsOf (fun _ => .ok false) boolPotential (samplesBy_exact rng)
      (systematic rng pf) n (fun _ => boolState k₀) u us k (d := false) (d' := false) rfl rfl
      (systematic_eq rng pf _ _ _ _) fun _ => rfl
    rw [show (List.range (us.length + 2)).map (fun _ => (.ok (boolState k₀) : Except Err (PFState K Bool Bool 2))) =
      List.replicate ((u :: us).length + 1) (.ok (boolState k₀)) by simp] at h2
    exact ⟨_, h2, rfl⟩
  refine ⟨states, hstates.1, fun t ht => ?_⟩
  rw [hstates.2]
  have ht' : t < us.length + 1 := by simpa using ht
  rw [List.getElem?_map, List.getElem?_range (by omega), Option.map_some, psAt, dif_pos ht]
  obtain ⟨J, hJ⟩ : ∃ J, J = backIdx (exactIdx rng) (fun _ => boolState k₀)
      (usedDensity boolPotential (u :: us) false) (backKey rng.toPrng k (us.length + 1)) (u :: us).length
      (systematicIdx rng pf (boolState k₀).logWeights n (rng.nth (rng.nth k (us.length + 2) 0) 2 1))
      ((u :: us).length - t) := ⟨_, rfl⟩
  have h6 : (fun m => (boolState k₀).particles (J m)) = fun _ => (u :: us)[t + 1]?.getD false := by
    funext m
    have h3 : (u :: us).length - t = (us.length - t) + 1 := by simp only [List.length_cons]; omega
    have h4 : (u :: us).length - (us.length - t + 1) = t := by simp only [List.length_cons]; omega
    rw [hJ, h3, backIdx, h4, backKey, dif_pos ht']
    exact hk ⟨t, ht'⟩ _ _ _ m
  rw [← hJ, h6]
  exact ⟨_, _, _, _, rfl⟩

end law

/-- For the inputs `true, false, true` the particles should be `true, false, true`; they are almost surely
`false, true, false`. -/
example : ∃ rng : Rng Key, IdealRng rng keyLaw ∧ ∀ k₀ inputsOf, ∀ᵐ k ∂keyLaw, ∃ states,
    (smoother rng.toPrng inputsOf (fun _ => .ok false)
        (particleSmoother rng.toPrng (fun _ => .ok false) boolPotential (exact rng) (systematic rng .cpu) 2)
        (List.replicate 4 (.ok (boolState k₀))) (some [true, false, true]) false (some k)).result = .ok states ∧
      ∀ t < 3, ∃ keys anc inputs weights, states[t]? = some (.ok ⟨2, keys,
        fun _ => [true, false, true][t + 1]?.getD false, anc, inputs, weights⟩) :=
  let ⟨rng, h, _⟩ := exists_ideal_prefix
  ⟨rng, h, fun k₀ inputsOf => smoother_uses_wrong_inputs h k₀ inputsOf .cpu 2 [true, false, true] (by simp)⟩

end

end Cuthbert.SMC
