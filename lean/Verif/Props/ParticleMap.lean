import Verif.Lemmas.Relational
import Verif.Lemmas.SMCResamplers

/-!
# C112: particle methods commute with maps of the state space

Two Feynman-Kac models are related by a map `g` of their states if `g` turns the initial draws of the first
model into those of the second, turns propagation into propagation and keeps the potentials. Run with the
same key, both models then give the same ancestors, weights and log normalising constants, and the particles
of the second run are the images under `g` of the particles of the first. In particular a particle can carry
additional information that does not enter the potentials (`g` forgets it) and the coordinates of the state
can be chosen freely (`g` is a bijection).
-/

namespace Cuthbert

section
variable {Inp K S S' Q Q' : Type*}

/-- Maps of filter and smoother states that commute with the three functions of a smoother commute with
`smoother`, whichever model inputs are given. -/
theorem smoother_map (rng : Prng K) (inputsOf : S → Inp) (inputsOf' : S' → Inp) (dummy : Inp → Except Err Inp)
    (s : SmootherObj Inp K S Q) (s' : SmootherObj Inp K S' Q') (r : S → S') (q : Q → Q')
    (hi : ∀ x, inputsOf' (r x) = inputsOf x)
    (h0 : ∀ x u k, q (s.convert x u k) = s'.convert (r x) u k)
    (h1 : ∀ x u k, q (s.smootherPrepare x u k) = s'.smootherPrepare (r x) u k)
    (h2 : ∀ a b, q (s.smootherCombine a b) = s'.smootherCombine (q a) (q b)) (fs : List S)
    (inputs : Option (List Inp)) (parallel : Bool) (key : Option K) :
    (smoother rng inputsOf' dummy s' (fs.map r) inputs parallel key).result =
      (smoother rng inputsOf dummy s fs inputs parallel key).result.map (List.map q) := by
  have e1 : (smoother rng inputsOf dummy s fs inputs parallel key) =
      smoother rng inputsOf dummy s fs (some (inputs.getD (fs.map inputsOf))) parallel key := rfl
  have e2 : (smoother rng inputsOf' dummy s' (fs.map r) inputs parallel key) =
      smoother rng inputsOf' dummy s' (fs.map r) (some (inputs.getD (fs.map inputsOf))) parallel key := by
    have e : (fs.map r).map inputsOf' = fs.map inputsOf := by
      rw [List.map_map]
      exact List.map_congr_left fun x _ => hi x
    rw [← e]
    rfl
  rw [e1, e2]
  generalize inputs.getD (fs.map inputsOf) = us
  by_cases h : us.length + 1 = fs.length
  · rw [smoother_core_eq _ _ _ _ _ _ h, smoother_core_eq _ _ _ _ _ _ (by rw [h, List.length_map])]
    exact smootherCore_map rng dummy s s' r q h0 h1 h2 fs us parallel key
  by_cases h' : us.length = fs.length
  · cases us with
    | nil =>
      obtain rfl := List.length_eq_zero_iff.mp h'.symm
      rfl
    | cons u us =>
      have a1 : (smoother rng inputsOf dummy s fs (some (u :: us)) parallel key).result =
          (smoother rng inputsOf dummy s fs (some us) parallel key).result := by
        have h3 : us.length + 1 = fs.length := h'
        unfold smoother
        simp only [Option.getD_some]
        rw [if_pos h', if_neg (by omega), if_neg (by omega)]
        rfl
      have a2 : (smoother rng inputsOf' dummy s' (fs.map r) (some (u :: us)) parallel key).result =
          (smoother rng inputsOf' dummy s' (fs.map r) (some us) parallel key).result := by
        have h3 : us.length + 1 = (fs.map r).length := by rw [List.length_map]; exact h'
        unfold smoother
        simp only [Option.getD_some]
        rw [if_pos (by simpa using h'), if_neg (by omega), if_neg (by omega)]
        rfl
      have h3 : us.length + 1 = fs.length := h'
      rw [a1, a2, smoother_core_eq _ _ _ _ _ _ h3, smoother_core_eq _ _ _ _ _ _ (by rw [h3, List.length_map])]
      exact smootherCore_map rng dummy s s' r q h0 h1 h2 fs us parallel key
  · unfold smoother
    simp only [Option.getD_some, List.length_map]
    rw [if_neg h', if_pos h]
    rfl

end

namespace SMC
open Resampling

noncomputable section

variable {K X Y Inp : Type} {N : ℕ}

/-- `g` maps the model `mdl` to the model `mdl'`. -/
structure MapsTo (g : X → Y) (mdl : FKModel K X Inp) (mdl' : FKModel K Y Inp) : Prop where
  init : ∀ k u, g (mdl.initSample k u) = mdl'.initSample k u
  propagate : ∀ k x u, g (mdl.propagate k x u) = mdl'.propagate k (g x) u
  potential : ∀ x x' u, mdl'.logPotential (g x) (g x') u = mdl.logPotential x x' u

/-- Two resampling functions (one for each type of particles) that choose the same indices and weights, whatever
the particles. -/
def Corresponds (g : X → Y) (R : Resampler K N X) (R' : Resampler K N Y) : Prop :=
  ∀ k l (pos : Fin N → X) n, R' k l (fun i => g (pos i)) n =
    (R k l pos n).map fun r => ⟨r.idx, r.logits, fun m => g (r.positions m)⟩

theorem corresponds_multinomial [NeZero N] (g : X → Y) (rng : Rng K) (pf : Platform) :
    Corresponds (N := N) g (multinomial rng pf) (multinomial rng pf) := fun _ _ _ _ => rfl

theorem corresponds_systematic [NeZero N] (g : X → Y) (rng : Rng K) (pf : Platform) :
    Corresponds (N := N) g (systematic rng pf) (systematic rng pf) := fun _ _ _ _ => rfl

theorem corresponds_killing [NeZero N] (g : X → Y) (rng : Rng K) (pf : Platform) :
    Corresponds (N := N) g (killing rng pf) (killing rng pf) := by
  intro k l pos n
  unfold killing
  by_cases h : n = N
  · simp only [dif_pos h]
    rfl
  · simp only [dif_neg h]
    rfl

theorem Corresponds.adaptive {g : X → Y} {R : Resampler K N X} {R' : Resampler K N Y} (h : Corresponds g R R')
    (θ : ℝ) : Corresponds g (adaptive R θ) (adaptive R' θ) := by
  intro k l pos n
  unfold Resampling.adaptive
  by_cases hn : n = N
  · simp only [dif_pos hn]
    split_ifs
    · exact h k l pos n
    · rfl
  · simp only [dif_neg hn]
    rfl

/-- A state of the particle filter with its particles mapped. -/
def PFState.mapParticles (g : X → Y) (s : PFState K X Inp N) : PFState K Y Inp N :=
  ⟨s.key, fun i => g (s.particles i), s.logWeights, s.ancestors, s.modelInputs, s.logZ⟩

/-- A state of the marginal particle filter with its particles mapped. -/
def MPFState.mapParticles (g : X → Y) (s : MPFState K X Inp N) : MPFState K Y Inp N :=
  ⟨s.key, fun i => g (s.particles i), s.logWeights, s.modelInputs, s.logZ⟩

/-- A state of the particle smoother with its particles mapped. -/
def PSState.mapParticles (g : X → Y) (s : PSState K X Inp N) : PSState K Y Inp N :=
  ⟨s.n, s.key, fun i => g (s.particles i), s.ancestors, s.modelInputs, s.logWeights⟩

/-- What fills the particles of prepared states does not matter in sequential mode. -/
theorem particle_filter_dummy (rng : Prng K) (mdl : FKModel K X Inp) (d d' : X) (R : Resampler K N X)
    (inputs : List Inp) (key : Option K) :
    filter rng (particleFilter rng mdl d N R) inputs false key =
      filter rng (particleFilter rng mdl d' N R) inputs false key := by
  have h : ∀ (prev : Except Err (PFState K X Inp N)) (ik : Inp × Option K),
      (particleFilter rng mdl d N R).filterCombine prev ((particleFilter rng mdl d N R).filterPrepare ik.1 ik.2) =
      (particleFilter rng mdl d' N R).filterCombine prev ((particleFilter rng mdl d' N R).filterPrepare ik.1 ik.2) := by
    intro prev ik
    obtain ⟨u, k⟩ := ik
    cases k <;> cases prev <;> rfl
  unfold filter
  simp only [h]
  rfl

theorem marginal_particle_filter_dummy (rng : Prng K) (mdl : FKModel K X Inp) (d d' : X) (R : Resampler K N X)
    (inputs : List Inp) (key : Option K) :
    filter rng (marginalParticleFilter rng mdl d N R) inputs false key =
      filter rng (marginalParticleFilter rng mdl d' N R) inputs false key := by
  have h : ∀ (prev : Except Err (MPFState K X Inp N)) (ik : Inp × Option K),
      (marginalParticleFilter rng mdl d N R).filterCombine prev
        ((marginalParticleFilter rng mdl d N R).filterPrepare ik.1 ik.2) =
      (marginalParticleFilter rng mdl d' N R).filterCombine prev
        ((marginalParticleFilter rng mdl d' N R).filterPrepare ik.1 ik.2) := by
    intro prev ik
    obtain ⟨u, k⟩ := ik
    cases k <;> cases prev <;> rfl
  unfold filter
  simp only [h]
  rfl

/-- C112 for the particle filter. Sequential mode: whatever fills the prepared states. -/
theorem particle_filter_maps {g : X → Y} {mdl : FKModel K X Inp} {mdl' : FKModel K Y Inp} (hg : MapsTo g mdl mdl')
    {R : Resampler K N X} {R' : Resampler K N Y} (hR : Corresponds g R R') (rng : Prng K) (d : X) (d' : Y)
    (inputs : List Inp) (parallel : Bool) (hd : parallel = true → d' = g d) (key : Option K) :
    (filter rng (particleFilter rng mdl' d' N R') inputs parallel key).result =
      (filter rng (particleFilter rng mdl d N R) inputs parallel key).result.map
        (List.map (Except.map (PFState.mapParticles g))) := by
  have main : (filter rng (particleFilter rng mdl' (g d) N R') inputs parallel key).result =
      (filter rng (particleFilter rng mdl d N R) inputs parallel key).result.map
        (List.map (Except.map (PFState.mapParticles g))) := by
    cases inputs with
    | nil => rfl
    | cons u us =>
      refine filter_homs rng _ _ _ (fun u k => ?_) (fun u k => ?_) (fun a b => ?_) u us parallel key
      · cases k with
        | none => rfl
        | some k => simp only [particleFilter, initPrepare, Except.map, PFState.mapParticles, hg.init]
      · cases k <;> rfl
      · cases a with
        | error e => rfl
        | ok a =>
          cases b with
          | error e => rfl
          | ok b =>
            have h := hR (rng.nth a.key (N + 1) 0) a.logWeights a.particles N
            simp only [particleFilter, bind, Except.bind, Except.map, filterCombine, PFState.mapParticles] at h ⊢
            rw [h]
            cases R (rng.nth a.key (N + 1) 0) a.logWeights a.particles N with
            | error e => rfl
            | ok r => simp only [pure, Except.pure, ← hg.propagate, hg.potential]
  cases parallel with
  | true => rw [hd rfl, main]
  | false => rw [particle_filter_dummy rng mdl' d' (g d), main]

/-- C112 for the marginal particle filter. -/
theorem marginal_particle_filter_maps {g : X → Y} {mdl : FKModel K X Inp} {mdl' : FKModel K Y Inp}
    (hg : MapsTo g mdl mdl') {R : Resampler K N X} {R' : Resampler K N Y} (hR : Corresponds g R R') (rng : Prng K)
    (d : X) (d' : Y) (inputs : List Inp) (parallel : Bool) (hd : parallel = true → d' = g d) (key : Option K) :
    (filter rng (marginalParticleFilter rng mdl' d' N R') inputs parallel key).result =
      (filter rng (marginalParticleFilter rng mdl d N R) inputs parallel key).result.map
        (List.map (Except.map (MPFState.mapParticles g))) := by
  have main : (filter rng (marginalParticleFilter rng mdl' (g d) N R') inputs parallel key).result =
      (filter rng (marginalParticleFilter rng mdl d N R) inputs parallel key).result.map
        (List.map (Except.map (MPFState.mapParticles g))) := by
    cases inputs with
    | nil => rfl
    | cons u us =>
      refine filter_homs rng _ _ _ (fun u k => ?_) (fun u k => ?_) (fun a b => ?_) u us parallel key
      · cases k with
        | none => rfl
        | some k => simp only [marginalParticleFilter, marginalInitPrepare, Except.map, MPFState.mapParticles, hg.init]
      · cases k <;> rfl
      · cases a with
        | error e => rfl
        | ok a =>
          cases b with
          | error e => rfl
          | ok b =>
            have h := hR (rng.nth a.key (N + 1) 0) a.logWeights a.particles N
            simp only [marginalParticleFilter, bind, Except.bind, Except.map, marginalFilterCombine,
              MPFState.mapParticles] at h ⊢
            rw [h]
            cases R (rng.nth a.key (N + 1) 0) a.logWeights a.particles N with
            | error e => rfl
            | ok r => simp only [pure, Except.pure, ← hg.propagate, hg.potential]
  cases parallel with
  | true => rw [hd rfl, main]
  | false => rw [marginal_particle_filter_dummy rng mdl' d' (g d), main]

/-- Two backward samplers that choose the same indices, whatever the particles. -/
def CorrespondsB (g : X → Y) (B : BackwardSampler K X N) (B' : BackwardSampler K Y N) : Prop :=
  ∀ k (x0 : Fin N → X) n (x1 : Fin n → X) w (p : X → X → Fl) (p' : Y → Y → Fl) a,
    (∀ x x', p' (g x) (g x') = p x x') →
    B' k (fun i => g (x0 i)) n (fun m => g (x1 m)) w p' a =
      (B k x0 n x1 w p a).map fun r => (fun m => g (r.1 m), r.2)

theorem corresponds_tracing (g : X → Y) : CorrespondsB (K := K) (N := N) g tracing tracing :=
  fun _ _ _ _ _ _ _ _ _ => rfl

theorem corresponds_exact [NeZero N] (g : X → Y) (rng : Rng K) :
    CorrespondsB (N := N) g (exact rng) (exact rng) := by
  intro k x0 n x1 w p p' a h
  simp only [SMC.exact, exactSingle, exactLogWeights, h, Except.map]

theorem imhScan_maps [NeZero N] (g : X → Y) (rng : Rng K) (pf : Platform) (x0 : Fin N → X) {n : ℕ} (x1 : Fin n → X)
    (w : Fin N → Fl) {p : X → X → Fl} {p' : Y → Y → Fl} (h : ∀ x x', p' (g x) (g x') = p x x') (M : ℕ)
    (keys : Fin (M * 2) → K) (c : IMHCarry N n X) : ∀ (t : ℕ) (ht : t ≤ M),
    imhScan rng pf (fun i => g (x0 i)) (fun m => g (x1 m)) w p' M keys ⟨c.idx, fun m => g (c.x0 m), c.logP⟩ t ht =
      (imhScan rng pf x0 x1 w p M keys c t ht).map fun c => ⟨c.idx, fun m => g (c.x0 m), c.logP⟩
  | 0, _ => rfl
  | t + 1, ht => by
    rw [imhScan, imhScan, imhScan_maps g rng pf x0 x1 w h M keys c t (by omega)]
    cases imhScan rng pf x0 x1 w p M keys c t (Nat.le_of_succ_le ht) with
    | error e => rfl
    | ok c =>
      simp only [bind, Except.bind, Except.map, imhStep, multinomial, pure, Except.pure, applyIndices, h]
      rfl

theorem corresponds_mcmc [NeZero N] (g : X → Y) (rng : Rng K) (pf : Platform) (M : ℕ) :
    CorrespondsB (N := N) g (mcmc rng pf M) (mcmc rng pf M) := by
  intro k x0 n x1 w p p' a h
  have e := imhScan_maps g rng pf x0 x1 w h M (rng.nth (rng.nth k 2 0) (M * 2))
    ⟨a, fun m => x0 (a m), fun m => p (x1 m) (x0 (a m))⟩ M le_rfl
  simp only [mcmc, tracing, bind, Except.bind, Except.map, h] at e ⊢
  rw [e]
  cases imhScan rng pf x0 x1 w p M (rng.nth (rng.nth k 2 0) (M * 2))
    ⟨a, fun m => x0 (a m), fun m => p (x1 m) (x0 (a m))⟩ M le_rfl <;> rfl

/-- C112 for the particle smoothers: from filter states whose particles are mapped, the smoother obtains the
mapped states. -/
theorem particle_smoother_maps {g : X → Y} {p : X → X → Inp → Fl} {p' : Y → Y → Inp → Fl}
    (hp : ∀ x x' u, p' (g x) (g x') u = p x x' u)
    {R : Resampler K N X} {R' : Resampler K N Y} (hR : Corresponds g R R')
    {B : BackwardSampler K X N} {B' : BackwardSampler K Y N} (hB : CorrespondsB g B B') (rng : Prng K)
    (inputsOf : Except Err (PFState K X Inp N) → Inp) (inputsOf' : Except Err (PFState K Y Inp N) → Inp)
    (hi : ∀ x, inputsOf' (x.map (PFState.mapParticles g)) = inputsOf x)
    (dummy dummy' : Inp → Except Err Inp) (n : ℕ) (states : List (Except Err (PFState K X Inp N)))
    (inputs : Option (List Inp)) (parallel : Bool) (key : Option K) :
    (smoother rng inputsOf' dummy (particleSmoother rng dummy' p' B' R' n)
        (states.map (Except.map (PFState.mapParticles g))) inputs parallel key).result =
      (smoother rng inputsOf dummy (particleSmoother rng dummy' p B R n) states inputs parallel key).result.map
        (List.map (Except.map (PSState.mapParticles g))) := by
  refine smoother_map rng inputsOf inputsOf' dummy _ _ _ _ hi (fun x u k => ?_) (fun x u k => ?_) (fun a b => ?_)
    states inputs parallel key
  · cases x with
    | error e => rfl
    | ok x =>
      cases k with
      | none => rfl
      | some k =>
        have h := hR (rng.nth k 2 1) x.logWeights x.particles n
        simp only [particleSmoother, bind, Except.bind, Except.map, convertToSmoother, PFState.mapParticles,
          Option.getD_some] at h ⊢
        cases dummy' u with
        | error e => rfl
        | ok v =>
          simp only
          rw [h]
          cases R (rng.nth k 2 1) x.logWeights x.particles n <;> rfl
  · cases x with
    | error e => rfl
    | ok x => cases k <;> rfl
  · cases a with
    | error e => rfl
    | ok a =>
      cases b with
      | error e => rfl
      | ok b =>
        by_cases hn : a.n = N
        · have h := hB a.key (fun i => a.particles (i.cast hn.symm)) b.n b.particles
            (fun i => a.logWeights (i.cast hn.symm)) (fun x x' => p x x' b.modelInputs)
            (fun x x' => p' x x' b.modelInputs) b.ancestors fun x x' => hp x x' _
          simp only [particleSmoother, bind, Except.bind, smootherCombine, PSState.mapParticles, dif_pos hn,
            Except.map] at h ⊢
          rw [h]
          cases B a.key (fun i => a.particles (i.cast hn.symm)) b.n b.particles
            (fun i => a.logWeights (i.cast hn.symm)) (fun x x' => p x x' b.modelInputs) b.ancestors <;> rfl
        · simp only [particleSmoother, bind, Except.bind, smootherCombine, PSState.mapParticles, dif_neg hn,
            Except.map]

/-- A model whose particles carry, next to the state, the number of steps and the previous state. Forgetting
both is a map to the original model, which is neither injective nor trivial. -/
def withHistory (mdl : FKModel K X Inp) : FKModel K (X × ℕ × Option X) Inp where
  initSample k u := (mdl.initSample k u, 0, none)
  propagate k x u := (mdl.propagate k x.1 u, x.2.1 + 1, some x.1)
  logPotential x x' u := mdl.logPotential x.1 x'.1 u

example (mdl : FKModel K X Inp) : MapsTo Prod.fst (withHistory mdl) mdl :=
  ⟨fun _ _ => rfl, fun _ _ _ => rfl, fun _ _ _ => rfl⟩

/-- A change of coordinates: a bijection relates a model to the model in the new coordinates. -/
def recoordinate (e : X ≃ Y) (mdl : FKModel K X Inp) : FKModel K Y Inp where
  initSample k u := e (mdl.initSample k u)
  propagate k y u := e (mdl.propagate k (e.symm y) u)
  logPotential y y' u := mdl.logPotential (e.symm y) (e.symm y') u

theorem mapsTo_recoordinate (e : X ≃ Y) (mdl : FKModel K X Inp) : MapsTo e mdl (recoordinate e mdl) :=
  ⟨fun _ _ => rfl, fun _ _ _ => by simp [recoordinate], fun _ _ _ => by simp [recoordinate]⟩

end

end SMC

end Cuthbert
