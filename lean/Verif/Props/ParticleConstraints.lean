import Verif.Props.Constraints
import Verif.Props.MCMCTrajectories

/-!
# Particle smoothers keep the constraints of the model (C140)
-/

namespace Cuthbert.SMC
open Cuthbert Resampling Spec

variable {K X Inp : Type} {N : ℕ}

/-- A backward sampling function returns particles of the earlier time. -/
def SamplesFrom (sampler : BackwardSampler K X N) : Prop :=
  ∀ k x0 n x1 l ld a out, sampler k x0 n x1 l ld a = .ok out → ∀ m, ∃ i, out.1 m = x0 i

theorem SamplesBy.samplesFrom {sampler : BackwardSampler K X N} {B : BackIdx K X N} (h : SamplesBy sampler B) :
    SamplesFrom sampler := by
  intro k x0 n x1 l ld a out ho m
  rw [h k x0 n x1 l ld a, Except.ok.injEq] at ho
  exact ⟨B k x0 n x1 l ld a m, by rw [← ho]⟩

/-- All three backward sampling functions do. -/
theorem samplesFrom_all [NeZero N] (rng : Rng K) (pf : Platform) (nSteps : ℕ) :
    SamplesFrom (K := K) (X := X) (N := N) tracing ∧ SamplesFrom (X := X) (N := N) (exact rng) ∧
      SamplesFrom (X := X) (N := N) (mcmc rng pf nSteps) :=
  ⟨samplesBy_tracing.samplesFrom, (samplesBy_exact rng).samplesFrom, (samplesBy_mcmc rng pf nSteps).samplesFrom⟩

/-- All particles that a particle smoother returns at time `t` are particles of the filter at time `t`. -/
theorem smoother_particles_from_filter (rng : Prng K) (inputsOf : Except Err (PFState K X Inp N) → Inp)
    (dummy : Inp → Except Err Inp) (lp : X → X → Inp → Fl) {sampler : BackwardSampler K X N} (hS : SamplesFrom sampler)
    (R : Resampler K N X) (n : ℕ) (hR : ∀ k l pos r, R k l pos n = .ok r → ∀ m, r.positions m = pos (r.idx m))
    (filterStates : List (Except Err (PFState K X Inp N))) (us : List Inp) (hlen : us.length + 1 = filterStates.length)
    (u d : Inp) (hu : us[0]? = some u) (hd : dummy u = .ok d) (key : Option K) :
    ∃ states, (smoother rng inputsOf dummy (particleSmoother rng dummy lp sampler R n) filterStates (some us) false key).result =
        .ok states ∧ states.length = us.length + 1 ∧ ∀ (t : ℕ) s, states[t]? = some (.ok s) →
          ∃ f, filterStates[t]? = some (.ok f) ∧ ∀ i, ∃ j, s.particles i = f.particles j := by
  obtain ⟨states, h1, h2⟩ := smoother_sequential_is_backward_run rng inputsOf dummy (particleSmoother rng dummy lp sampler R n)
    filterStates us key hlen u hu d hd
  refine ⟨states, h1, by rw [h2.length_eq, hlen], fun t s hs => ?_⟩
  have ht : t < us.length + 1 := by
    have := (List.getElem?_eq_some_iff.mp hs).1
    rw [h2.length_eq] at this
    omega
  obtain ⟨x, hx⟩ : ∃ x, filterStates[t]? = some x := ⟨_, List.getElem?_eq_getElem (by omega)⟩
  rcases Nat.lt_succ_iff_lt_or_eq.mp ht with h | rfl
  · obtain ⟨v, hv⟩ : ∃ v, us[t]? = some v := ⟨_, List.getElem?_eq_getElem h⟩
    obtain ⟨s', hs'⟩ : ∃ s', states[t + 1]? = some s' := ⟨_, List.getElem?_eq_getElem (by rw [h2.length_eq]; omega)⟩
    have h3 := h2.step t x v s' hx hv hs'
    rw [hs, Option.some.injEq] at h3
    cases x with
    | error e => cases h3
    | ok f =>
      refine ⟨f, hx, ?_⟩
      cases hk : keyAt rng key filterStates.length (t + 1) with
      | none => rw [hk] at h3; cases h3
      | some k =>
        rw [hk] at h3
        cases s' with
        | error e => cases h3
        | ok q =>
          change Except.ok s = smootherCombine sampler lp ⟨N, k, f.particles, f.ancestors, v, f.logWeights⟩ q at h3
          rw [smootherCombine, dif_pos rfl] at h3
          cases ho : sampler k f.particles q.n q.particles f.logWeights (fun x0 x1 => lp x0 x1 q.modelInputs) q.ancestors with
          | error e =>
            simp only [Fin.cast_refl, id_eq] at h3
            rw [ho] at h3
            cases h3
          | ok out =>
            simp only [Fin.cast_refl, id_eq] at h3
            rw [ho] at h3
            have h4 := Except.ok.inj h3
            subst h4
            exact fun i => hS _ _ _ _ _ _ _ _ ho i
  · have hl : filterStates.getLast? = some x := by
      rw [List.getLast?_eq_getElem?, ← hlen]
      simpa using hx
    have h3 := h2.last x hl
    rw [List.getLast?_eq_getElem?, h2.length_eq, ← hlen, Nat.add_sub_cancel, hs, Option.some.injEq] at h3
    cases x with
    | error e => cases h3
    | ok f =>
      refine ⟨f, hx, ?_⟩
      cases hk : keyAt rng key (us.length + 1) 0 with
      | none => rw [hk] at h3; cases h3
      | some k =>
        rw [hk] at h3
        change Except.ok s = convertToSmoother rng dummy R n f (some d) (some k) at h3
        simp only [convertToSmoother] at h3
        cases hdd : dummy ((some d).getD f.modelInputs) with
        | error e => rw [hdd] at h3; cases h3
        | ok d' =>
          rw [hdd] at h3
          cases hr : R (rng.nth k 2 1) f.logWeights f.particles n with
          | error e =>
            have h4 : (Except.ok s : Except Err (PSState K X Inp N)) = (R (rng.nth k 2 1) f.logWeights f.particles n >>= fun r =>
              Except.ok ⟨n, rng.nth k 2 0, r.positions, fun m => f.ancestors (r.idx m), d', r.logits⟩) := h3
            rw [hr] at h4
            cases h4
          | ok r =>
            have h4 : (Except.ok s : Except Err (PSState K X Inp N)) = (R (rng.nth k 2 1) f.logWeights f.particles n >>= fun r =>
              Except.ok ⟨n, rng.nth k 2 0, r.positions, fun m => f.ancestors (r.idx m), d', r.logits⟩) := h3
            rw [hr] at h4
            have h5 := Except.ok.inj h4
            subst h5
            exact fun i => ⟨r.idx i, hR _ _ _ _ hr i⟩

/-- **C140** (particle smoother). If the proposals keep the particles in the sets `A t`, all particles that a particle smoother
returns at time `t` are in `A t`, whichever of the backward sampling functions is used. -/
theorem smoother_keeps_constraints (rng rng' : Prng K) (mdl : FKModel K X Inp) (dummyX : X) (R : Resampler K N X)
    (hR : ∀ k l pos r, R k l pos N = .ok r → ∀ m, r.positions m = pos (r.idx m)) (u0 u : Inp) (us : List Inp) (key key' : Option K)
    {A : ℕ → Set X} (h0 : ∀ k, mdl.initSample k u0 ∈ A 0)
    (h : ∀ t (ht : t < (u :: us).length) k, ∀ x ∈ A t, mdl.propagate k x (u :: us)[t] ∈ A (t + 1))
    (inputsOf : Except Err (PFState K X Inp N) → Inp)
    (dummy : Inp → Except Err Inp) (lp : X → X → Inp → Fl) {sampler : BackwardSampler K X N} (hS : SamplesFrom sampler)
    (R' : Resampler K N X) (n : ℕ) (hR' : ∀ k l pos r, R' k l pos n = .ok r → ∀ m, r.positions m = pos (r.idx m))
    {d : Inp} (hd : dummy u = .ok d) :
    ∃ filterStates states, (filter rng (particleFilter rng mdl dummyX N R) (u0 :: u :: us) false key).result = .ok filterStates ∧
      (smoother rng' inputsOf dummy (particleSmoother rng' dummy lp sampler R' n) filterStates (some (u :: us)) false key').result =
        .ok states ∧ states.length = filterStates.length ∧
      ∀ (t : ℕ) s, states[t]? = some (.ok s) → ∀ i, s.particles i ∈ A t := by
  obtain ⟨fs, h1, h2, h3⟩ := filter_keeps_constraints rng mdl dummyX R hR u0 (u :: us) key h0 h
  obtain ⟨ss, h4, h5, h6⟩ := smoother_particles_from_filter rng' inputsOf dummy lp hS R' n hR' fs (u :: us) h2.symm u d rfl hd key'
  refine ⟨fs, ss, h1, h4, by rw [h5, h2], fun t s hs i => ?_⟩
  obtain ⟨f, hf, hi⟩ := h6 t s hs
  obtain ⟨j, hj⟩ := hi i
  rw [hj]
  exact h3 t f hf j

/-- The hypotheses of the theorem, for a walk that stays nonnegative. -/
example : ∃ (mdl : FKModel Unit ℤ Int) (A : ℕ → Set ℤ), (∀ k u, mdl.initSample k u ∈ A 0) ∧
    (∀ t k u, ∀ x ∈ A t, mdl.propagate k x u ∈ A (t + 1)) ∧ (1 : ℤ) ∈ A 0 ∧ (-1 : ℤ) ∉ A 0 :=
  ⟨⟨fun _ _ => 1, fun _ x u => |x + u|, fun _ _ _ => 0⟩, fun _ => {x | 0 ≤ x}, fun _ _ => by simp,
    fun _ _ u x _ => abs_nonneg (x + u), by simp, by simp⟩

end Cuthbert.SMC
