import Verif.Lemmas.Shift
import Verif.Lemmas.SMCLaw

/-!
# Properties: runs of the particle filter, one by one (C53, C54, C60, C62)
-/

namespace Cuthbert.SMC
open Resampling Spec

noncomputable section

variable {K X Inp : Type} {N : ℕ}

/-! ## C54 -/

/-- Consecutive states of a run are related by `filterCombine`. -/
theorem filter_step (rng : Prng K) (mdl : FKModel K X Inp) (dummy : X) (R : Resampler K N X) (u0 : Inp)
    (us : List Inp) (key : Option K) :
    ∃ states, (filter rng (particleFilter rng mdl dummy N R) (u0 :: us) false key).result = .ok states ∧
      states.length = us.length + 1 ∧
      ∀ t (ht : t < us.length) s', states[t + 1]? = some (.ok s') →
        ∃ s k, states[t]? = some (.ok s) ∧
          filterCombine rng mdl R s ⟨k, fun _ => dummy, fun _ => 0, id, us[t], 0⟩ = .ok s' := by
  refine ⟨_, filter_sequential_eq rng _ u0 us key, ?_, fun t ht s' hs' => ?_⟩
  · rw [runningFold_length, filterElems_length]
  · have hel := filterElems_get rng (particleFilter rng mdl dummy N R) us key t
    rw [List.getElem?_eq_getElem ht, Option.map_some] at hel
    generalize keyAt rng key (us.length + 1) (t + 1) = k at hel
    obtain ⟨e, he⟩ : ∃ e, (runningFold (particleFilter rng mdl dummy N R).filterCombine
        ((particleFilter rng mdl dummy N R).initPrepare u0 (keyAt rng key (us.length + 1) 0))
        (filterElems rng (particleFilter rng mdl dummy N R) us key))[t]? = some e :=
      ⟨_, List.getElem?_eq_getElem (by rw [runningFold_length, filterElems_length]; omega)⟩
    have h1 := runningFold_get_succ _ _ _ t _ e hel he
    rw [hs'] at h1
    have h2 : (Except.ok s' : Except Err (PFState K X Inp N)) =
        (do filterCombine rng mdl R (← e) (← filterPrepare dummy N us[t] k)) := Option.some.inj h1
    cases e with
    | error e => cases h2
    | ok s =>
      cases k with
      | none => cases h2
      | some k => exact ⟨s, k, he, h2.symm⟩

/-- C54: consecutive states of any run. The ancestor indices are those that the resampling function
returned for the previous state, each particle is proposed from its ancestor, its weight is the
resampled weight times the potential at (parent, child), and the log normalising constant grows by
the log ratio of the total weights. -/
theorem particle_filter_genealogy (rng : Prng K) (mdl : FKModel K X Inp) (dummy : X) (R : Resampler K N X)
    (hR : ∀ k l pos r, R k l pos N = .ok r → ∀ m, r.positions m = pos (r.idx m))
    (u0 : Inp) (us : List Inp) (key : Option K) :
    ∃ states, (filter rng (particleFilter rng mdl dummy N R) (u0 :: us) false key).result = .ok states ∧
      states.length = us.length + 1 ∧
      ∀ t (ht : t < us.length) s', states[t + 1]? = some (.ok s') →
        ∃ s k r, states[t]? = some (.ok s) ∧ R k s.logWeights s.particles N = .ok r ∧
          s'.ancestors = r.idx ∧
          (∀ i, ∃ k', s'.particles i = mdl.propagate k' (s.particles (s'.ancestors i)) us[t]) ∧
          (∀ i, s'.logWeights i =
            mdl.logPotential (s.particles (s'.ancestors i)) (s'.particles i) us[t] + r.logits i) ∧
          s'.logZ = Fl.logsumexp s'.logWeights - Fl.logsumexp r.logits + s.logZ ∧
          s'.modelInputs = us[t] := by
  obtain ⟨states, h1, h2, h3⟩ := filter_step rng mdl dummy R u0 us key
  refine ⟨states, h1, h2, fun t ht s' hs' => ?_⟩
  obtain ⟨s, k, h4, h5⟩ := h3 t ht s' hs'
  cases hr : R (rng.nth s.key (N + 1) 0) s.logWeights s.particles N with
  | error e =>
    unfold filterCombine at h5
    simp only [hr] at h5
    cases h5
  | ok r =>
    have hpos := hR _ _ _ r hr
    unfold filterCombine at h5
    simp only [hr] at h5
    have h6 := (Except.ok.inj h5).symm
    subst h6
    refine ⟨s, _, r, h4, hr, rfl, fun i => ⟨rng.nth s.key (N + 1) i.succ, ?_⟩, fun i => ?_, rfl, rfl⟩
    · simp only [hpos]
    · simp only [hpos]

/-- The resampling functions satisfy the hypothesis of C54. -/
example [NeZero N] (rng : Rng K) (pf : Platform) (θ : ℝ) (k : K) (l : Fin N → Fl) (pos : Fin N → X)
    (r : Resampled N N X) (h : adaptive (killing rng pf) θ k l pos N = .ok r) :
    ∀ m, r.positions m = pos (r.idx m) := by
  have h1 := uses_adaptive (uses_killing rng pf) θ k l pos
  rw [h] at h1
  have h2 := Except.ok.inj h1
  subst h2
  exact fun m => rfl

/-! ## C53: all particles dead -/

/-- With adaptive resampling a run in which all particles have weight zero at some time has the log
normalising constant `nan` one step later, instead of `-∞`. -/
theorem adaptive_dead_evidence (rng : Prng K) (mdl : FKModel K X Inp) (dummy : X) (R : Resampler K N X)
    (θ : ℝ) (u0 : Inp) (us : List Inp) (key : Option K) :
    ∃ states, (filter rng (particleFilter rng mdl dummy N (adaptive R θ)) (u0 :: us) false key).result =
        .ok states ∧
      ∀ t < us.length, ∀ s s', states[t]? = some (.ok s) → states[t + 1]? = some (.ok s') →
        (∀ i, s.logWeights i = Fl.ninf) → s'.logZ = Fl.nan := by
  obtain ⟨states, h1, -, h3⟩ := filter_step rng mdl dummy (adaptive R θ) u0 us key
  refine ⟨states, h1, fun t ht s s' hs hs' hdead => ?_⟩
  obtain ⟨s₂, k, h4, h5⟩ := h3 t ht s' hs'
  have h6 : s₂ = s := by
    rw [hs] at h4
    exact (Except.ok.inj (Option.some.inj h4)).symm
  subst h6
  have h7 : s₂.logWeights = fun _ => Fl.ninf := funext hdead
  have hr := adaptive_all_dead R θ (rng.nth s₂.key (N + 1) 0) s₂.particles
  unfold filterCombine at h5
  simp only [h7, hr] at h5
  have h8 := (Except.ok.inj h5).symm
  subst h8
  have h9 : Fl.logsumexp (fun _ : Fin N => Fl.ninf) = Fl.ninf := by
    rw [Fl.logsumexp]
    simp only [Fl.exp_ninf, Fl.sum_fin, Finset.sum_const_zero, Fl.log_zero]
  have h10 : ∀ lp : Fin N → Fl, Fl.logsumexp (fun i => lp i + Fl.ninf) - Fl.ninf = Fl.nan := by
    intro lp
    by_cases hn : ∃ i, lp i + Fl.ninf = Fl.nan
    · obtain ⟨i, hi⟩ := hn
      rw [Fl.logsumexp, Fl.sum_nan _ _ i (Finset.mem_univ i) (by rw [hi, Fl.exp_nan]), Fl.log_nan, Fl.nan_sub]
    · have h11 : (fun i => lp i + Fl.ninf) = fun _ => Fl.ninf := by
        funext i
        by_contra h12
        have h13 : lp i + Fl.ninf = Fl.nan ∨ lp i + Fl.ninf = Fl.ninf := by
          cases lp i <;> first | exact Or.inl rfl | exact Or.inr rfl
        exact h13.elim (fun h => hn ⟨i, h⟩) h12
      rw [h11, h9]
      rfl
  simp only [h9, h10, Fl.nan_add]

/-- A run whose particles all die in the first step: the log normalising constant is `nan` after the
second step. -/
example [NeZero N] (rng : Rng K) (pf : Platform) (k : K) (u0 u1 u2 : Inp) :
    ∃ states s, (filter rng.toPrng (particleFilter rng.toPrng
        (⟨fun _ _ => (), fun _ _ _ => (), fun _ _ _ => Fl.ninf⟩ : FKModel K Unit Inp) () N
          (adaptive (killing rng pf) 1)) [u0, u1, u2] false (some k)).result = .ok states ∧
      states[2]? = some (.ok s) ∧ s.logZ = Fl.nan := by
  have hU := uses_adaptive (uses_killing (N := N) (X := Unit) rng pf) 1
  obtain ⟨states, h1, h2⟩ := adaptive_dead_evidence rng.toPrng
    (⟨fun _ _ => (), fun _ _ _ => (), fun _ _ _ => Fl.ninf⟩ : FKModel K Unit Inp) ()
    (killing (N := N) rng pf) 1 u0 [u1, u2] (some k)
  have h3 := filter_pf_eq (rng := rng.toPrng)
    (mdl := (⟨fun _ _ => (), fun _ _ _ => (), fun _ _ _ => Fl.ninf⟩ : FKModel K Unit Inp)) hU () u0 [u1, u2] k
  have h4 := h3 ▸ h1
  have h5 := (Except.ok.inj h4).symm
  refine ⟨states, _, h1, ?_, h2 1 (by simp) _ _ (by rw [h5]; rfl) (by rw [h5]; rfl) fun i => ?_⟩
  · rw [h5]
    rfl
  · change (pfRun _ _ _ _ u0 [u1, u2] k (0 + 1)).logWeights i = _
    rw [pfRun_succ _ _ _ 0 (by simp), pfRun_zero]
    change Fl.ninf + adaptLogits zeroLogits 1 _ (fun _ => 0) i = _
    unfold adaptLogits
    split <;> rfl

/-! ## C60 -/

/-- The random operations of a run of `T` steps: drawing an initial particle, resampling, and
propagating a particle. -/
inductive KeyUse (N T : ℕ) where
  | init (i : Fin N)
  | resample (t : Fin T)
  | propagate (t : Fin T) (i : Fin N)

/-- A generator whose splits never collide. -/
def CollisionFree (rng : Prng K) : Prop :=
  ∀ k k' n n' (i : Fin n) (i' : Fin n'), rng.nth k n i = rng.nth k' n' i' →
    k = k' ∧ n = n' ∧ (i : ℕ) = i'

/-- The keys of a run. -/
def runKey (rng : Prng K) (T : ℕ) (k : K) : KeyUse N T → K
  | .init i => rng.nth (rng.nth k (T + 1) 0) N i
  | .resample t => rng.nth (rng.nth k (T + 1) t.castSucc) (N + 1) 0
  | .propagate t i => rng.nth (rng.nth k (T + 1) t.castSucc) (N + 1) i.succ

/-- C60: which key each random operation of a run consumes (for every model and resampling
function), and that these keys are all different if the generator's splits never collide. Missing:
for generators with prefix splitting keys are reused, see `particle_filter_key_reuse`. -/
theorem particle_filter_keys_partial [NeZero N] (rng : Prng K) (T : ℕ) (k : K) : ∃ key : KeyUse N T → K,
    (∀ (mdl : FKModel K X Inp) (dummy : X) (R : Resampler K N X)
      (I : K → (Fin N → Fl) → Fin N → Fin N) (L : K → (Fin N → Fl) → Fin N → Fl), Uses R I L →
      ∀ (u0 : Inp) (us : List Inp) (hT : us.length = T), ∃ S : ℕ → PFState K X Inp N,
        filter rng (particleFilter rng mdl dummy N R) (u0 :: us) false (some k) =
          ⟨false, .ok ((List.range (T + 1)).map fun t => .ok (S t))⟩ ∧
        (∀ i, (S 0).particles i = mdl.initSample (key (.init i)) u0) ∧
        ∀ t : Fin T, (S (t + 1)).ancestors = I (key (.resample t)) (S t).logWeights ∧
          ∀ i, (S (t + 1)).particles i = mdl.propagate (key (.propagate t i))
              ((S t).particles ((S (t + 1)).ancestors i)) (us[t]'(by omega)) ∧
            (S (t + 1)).logWeights i =
              mdl.logPotential ((S t).particles ((S (t + 1)).ancestors i)) ((S (t + 1)).particles i)
                (us[t]'(by omega)) + L (key (.resample t)) (S t).logWeights i) ∧
    (CollisionFree rng → Function.Injective key) := by
  refine ⟨runKey rng T k, ?_, ?_⟩
  · rintro mdl dummy R I L hR u0 us rfl
    refine ⟨pfRun rng mdl I L u0 us k, filter_pf_eq hR dummy u0 us k, fun i => ?_, fun t => ?_⟩
    · rw [pfRun_zero]
      rfl
    · have hk := pfRun_key (rng := rng) (mdl := mdl) (I := I) (L := L) u0 us k t (by omega)
      have h1 := pfRun_succ (rng := rng) (mdl := mdl) (I := I) (L := L) u0 us k t t.2
      rw [h1]
      have hk' : (pfRun rng mdl I L u0 us k t).key = rng.nth k (us.length + 1) t.castSucc := hk
      refine ⟨?_, fun i => ⟨?_, ?_⟩⟩ <;>
        simp only [stepTo, coreStep, PFState.core, hk', runKey] <;> rfl
  · intro hc a b hab
    cases a with
    | init i =>
      cases b with
      | init j =>
        obtain ⟨-, -, h⟩ := hc _ _ _ _ _ _ hab
        rw [Fin.ext h]
      | resample t => exact absurd (hc _ _ _ _ _ _ hab).2.1 (by omega)
      | propagate t j => exact absurd (hc _ _ _ _ _ _ hab).2.1 (by omega)
    | resample t =>
      cases b with
      | init j => exact absurd (hc _ _ _ _ _ _ hab).2.1 (by omega)
      | resample s =>
        obtain ⟨h1, -, -⟩ := hc _ _ _ _ _ _ hab
        obtain ⟨-, -, h⟩ := hc _ _ _ _ _ _ h1
        have h4 : t = s := Fin.ext h
        rw [h4]
      | propagate s j =>
        obtain ⟨-, -, h⟩ := hc _ _ _ _ _ _ hab
        simp at h
    | propagate t i =>
      cases b with
      | init j => exact absurd (hc _ _ _ _ _ _ hab).2.1 (by omega)
      | resample s =>
        obtain ⟨-, -, h⟩ := hc _ _ _ _ _ _ hab
        simp at h
      | propagate s j =>
        obtain ⟨h1, -, h2⟩ := hc _ _ _ _ _ _ hab
        obtain ⟨-, -, h⟩ := hc _ _ _ _ _ _ h1
        have h3 : i = j := by
          apply Fin.ext
          simpa using h2
        have h4 : t = s := Fin.ext h
        rw [h3, h4]

/-- A collision-free generator: keys are the paths in the splitting tree. -/
def treeRng : Prng (List (ℕ × ℕ)) where
  split k n := (List.range n).map fun i => (n, i) :: k
  length_split k n := by simp

theorem treeRng_collisionFree : CollisionFree treeRng := by
  intro k k' n n' i i' h
  simp only [Prng.nth, treeRng, Fin.getElem_fin, List.getElem_map, List.getElem_range, List.cons.injEq,
    Prod.mk.injEq] at h
  exact ⟨h.2, h.1.1, h.1.2⟩

/-- A model whose particles are the keys they were drawn with. -/
def keyModel (K Inp : Type) : FKModel K K Inp where
  initSample k _ := k
  propagate k _ _ := k
  logPotential _ _ _ := 0

/-- C60 is false for generators with prefix splitting, such as JAX's default one (threefry with partitionable counters): the key that
draws the initial particle `i + 1` also propagates particle `i` in the first step, and the key that
draws the initial particle `0` is the key of the first resampling. In a model whose particles are
the keys they were drawn with, the particles at times `0` and `1` are equal up to a shift. -/
theorem particle_filter_key_reuse [NeZero N] (rng : Prng K) (hp : PrefixSplit rng) (dummy : K)
    {R : Resampler K N K} {I : K → (Fin N → Fl) → Fin N → Fin N} {L : K → (Fin N → Fl) → Fin N → Fl}
    (hR : Uses R I L) (u0 u1 : Inp) (us : List Inp) (k : K) :
    ∃ S : ℕ → PFState K K Inp N,
      filter rng (particleFilter rng (keyModel K Inp) dummy N R) (u0 :: u1 :: us) false (some k) =
        ⟨false, .ok ((List.range (us.length + 2)).map fun t => .ok (S t))⟩ ∧
      (∀ i j : Fin N, (j : ℕ) = i + 1 → (S 0).particles j = (S 1).particles i) ∧
      (S 1).ancestors = I ((S 0).particles 0) (S 0).logWeights := by
  refine ⟨pfRun rng (keyModel K Inp) I L u0 (u1 :: us) k, filter_pf_eq hR dummy u0 (u1 :: us) k,
    fun i j hij => ?_, ?_⟩
  · rw [pfRun_succ u0 (u1 :: us) k 0 (by simp), pfRun_zero]
    have h1 := hp (rng.nth k ((u1 :: us).length + 1) 0) N (N + 1) j j.2 (by omega)
    have h2 : (⟨(j : ℕ), by omega⟩ : Fin (N + 1)) = i.succ := Fin.ext hij
    rw [h2] at h1
    exact h1
  · rw [pfRun_succ u0 (u1 :: us) k 0 (by simp), pfRun_zero]
    have h1 := hp (rng.nth k ((u1 :: us).length + 1) 0) N (N + 1) 0 (NeZero.pos N) (by omega)
    have h2 : rng.nth (rng.nth k ((u1 :: us).length + 1) 0) N 0 =
      rng.nth (rng.nth k ((u1 :: us).length + 1) 0) (N + 1) 0 := h1
    simp only [stepTo, pfInit, keyModel]
    rw [h2]

/-! ## C62 -/

/-- The model whose inputs carry constants that are added to the log potential. -/
def scaled (mdl : FKModel K X Inp) : FKModel K X (Inp × ℝ) where
  initSample k q := mdl.initSample k q.1
  propagate k x q := mdl.propagate k x q.1
  logPotential x x' q := mdl.logPotential x x' q.1 + Fl.fin q.2

theorem pfRun_scaled {rng : Prng K} {mdl : FKModel K X Inp} {I : K → (Fin N → Fl) → Fin N → Fin N}
    {L : K → (Fin N → Fl) → Fin N → Fl} (hS : ShiftInvariant I L) (u0 : Inp × ℝ) (us : List (Inp × ℝ)) (k : K) :
    ∀ t ≤ us.length,
      (pfRun rng (scaled mdl) I L u0 us k t).particles =
        (pfRun rng mdl I L u0.1 (us.map Prod.fst) k t).particles ∧
      (pfRun rng (scaled mdl) I L u0 us k t).ancestors =
        (pfRun rng mdl I L u0.1 (us.map Prod.fst) k t).ancestors ∧
      (∃ c : ℝ, (pfRun rng (scaled mdl) I L u0 us k t).logWeights = fun i =>
        (pfRun rng mdl I L u0.1 (us.map Prod.fst) k t).logWeights i + Fl.fin c) ∧
      (pfRun rng (scaled mdl) I L u0 us k t).logZ =
        (pfRun rng mdl I L u0.1 (us.map Prod.fst) k t).logZ + Fl.fin ((us.take t).map Prod.snd).sum
  | 0, _ => by
    rw [pfRun_zero, pfRun_zero]
    refine ⟨?_, rfl, ⟨0, ?_⟩, ?_⟩
    · have h : ∀ n, n = us.length → rng.nth k (n + 1) 0 = rng.nth k (us.length + 1) 0 := by
        rintro _ rfl
        rfl
      simp only [pfInit, h _ (List.length_map Prod.fst)]
      rfl
    · funext i
      exact (add_zero (0 : Fl)).symm
    · simp only [List.take_zero, List.map_nil, List.sum_nil]
      exact (add_zero (0 : Fl)).symm
  | t + 1, ht => by
    obtain ⟨h1, h2, ⟨c, h3⟩, h4⟩ := pfRun_scaled hS u0 us k t (by omega)
    have ht' : t < us.length := by omega
    have hk1 := pfRun_key (rng := rng) (mdl := scaled mdl) (I := I) (L := L) u0 us k t ht'.le
    have hk2 := pfRun_key (rng := rng) (mdl := mdl) (I := I) (L := L) u0.1 (us.map Prod.fst) k t
      (by simpa using ht'.le)
    have hk : (pfRun rng (scaled mdl) I L u0 us k t).key =
        (pfRun rng mdl I L u0.1 (us.map Prod.fst) k t).key := by
      have h : ∀ n (hn : n = us.length), rng.nth k (n + 1) ⟨t, by omega⟩ = rng.nth k (us.length + 1) ⟨t, by omega⟩ := by
        rintro _ rfl
        rfl
      rw [hk1, hk2, h _ (List.length_map Prod.fst)]
    rw [pfRun_succ u0 us k t ht', pfRun_succ u0.1 (us.map Prod.fst) k t (by simpa using ht')]
    rw [List.getElem_map]
    have hsum : ((us.take (t + 1)).map Prod.snd).sum = ((us.take t).map Prod.snd).sum + us[t].2 := by
      rw [List.take_succ_eq_append_getElem ht', List.map_append, List.sum_append]
      simp
    rw [hsum]
    generalize pfRun rng (scaled mdl) I L u0 us k t = s' at *
    generalize pfRun rng mdl I L u0.1 (us.map Prod.fst) k t = s at *
    generalize us[t] = q
    generalize ((us.take t).map Prod.snd).sum = A at *
    obtain ⟨hI, d, hL⟩ := hS (rng.nth s.key (N + 1) 0) s.logWeights c
    have hw : ∀ x y : X, ∀ l : Fl, (scaled mdl).logPotential x y q + (l + Fl.fin d) =
        (mdl.logPotential x y q.1 + l) + Fl.fin (q.2 + d) := by
      intro x y l
      rw [← Fl.fin_add]
      simp only [scaled]
      exact add_add_add_comm _ _ _ _
    refine ⟨?_, ?_, ⟨q.2 + d, ?_⟩, ?_⟩
    · simp only [stepTo, coreStep, PFState.core, hk, h1, h3, hI]
      rfl
    · simp only [stepTo, hk, h3, hI]
    · simp only [stepTo, coreStep, PFState.core, hk, h1, h3, hI, hL, hw]
      rfl
    · simp only [stepTo, coreStep, PFState.core, hk, h1, h3, hI, hL, hw, Fl.logsumexp_shift,
        Fl.add_fin_sub_add_fin, h4, add_sub_cancel_right]
      rw [add_add_add_comm, Fl.fin_add, add_comm q.2]
      rfl

theorem nw_shift (l : Fin N → Fl) (c : ℝ) (i : Fin N) : nw (fun i => l i + Fl.fin c) i = nw l i := by
  have h : ∀ a : Fl, (a + Fl.fin c).lik = a.lik * Real.exp c := by
    intro a
    cases a <;> simp [Fl.add_def, Fl.add, Fl.lik, Real.exp_add]
  simp only [nw, h, ← Finset.sum_mul]
  rw [mul_div_mul_right _ _ (Real.exp_pos c).ne']

/-- C62: run the filter twice with the same key, the second time with a constant `a_t` added to the
log potential of step `t` (the constants are the second components of `us`). Particles, ancestors and
normalised weights agree and the log normalising constants differ by the sum of the constants so far.
This holds for all log potentials, `nan` and infinities included, and all resampling functions. -/
theorem particle_filter_scaling [NeZero N] (rng : Rng K) (mdl : FKModel K X Inp) (dummy : X) {R : Resampler K N X}
    {pf : Platform} {θ : ℝ}
    (hR : R = multinomial rng pf ∨ R = systematic rng pf ∨ R = killing rng pf ∨
      R = adaptive (multinomial rng pf) θ ∨ R = adaptive (systematic rng pf) θ ∨
      R = adaptive (killing rng pf) θ)
    (u0 : Inp × ℝ) (us : List (Inp × ℝ)) (k : K) :
    ∃ (S : ℕ → PFState K X Inp N) (S' : ℕ → PFState K X (Inp × ℝ) N),
      filter rng.toPrng (particleFilter rng.toPrng mdl dummy N R) (u0.1 :: us.map Prod.fst) false (some k) =
        ⟨false, .ok ((List.range (us.length + 1)).map fun t => .ok (S t))⟩ ∧
      filter rng.toPrng (particleFilter rng.toPrng (scaled mdl) dummy N R) (u0 :: us) false (some k) =
        ⟨false, .ok ((List.range (us.length + 1)).map fun t => .ok (S' t))⟩ ∧
      ∀ t ≤ us.length, (S' t).particles = (S t).particles ∧ (S' t).ancestors = (S t).ancestors ∧
        (∀ i, nw (S' t).logWeights i = nw (S t).logWeights i) ∧
        (S' t).logZ = (S t).logZ + Fl.fin ((us.take t).map Prod.snd).sum := by
  have key : ∀ I L, Uses R I L → ShiftInvariant I L →
      ∃ (S : ℕ → PFState K X Inp N) (S' : ℕ → PFState K X (Inp × ℝ) N),
      filter rng.toPrng (particleFilter rng.toPrng mdl dummy N R) (u0.1 :: us.map Prod.fst) false (some k) =
        ⟨false, .ok ((List.range (us.length + 1)).map fun t => .ok (S t))⟩ ∧
      filter rng.toPrng (particleFilter rng.toPrng (scaled mdl) dummy N R) (u0 :: us) false (some k) =
        ⟨false, .ok ((List.range (us.length + 1)).map fun t => .ok (S' t))⟩ ∧
      ∀ t ≤ us.length, (S' t).particles = (S t).particles ∧ (S' t).ancestors = (S t).ancestors ∧
        (∀ i, nw (S' t).logWeights i = nw (S t).logWeights i) ∧
        (S' t).logZ = (S t).logZ + Fl.fin ((us.take t).map Prod.snd).sum := by
    intro I L h1 h2
    refine ⟨pfRun rng.toPrng mdl I L u0.1 (us.map Prod.fst) k, pfRun rng.toPrng (scaled mdl) I L u0 us k,
      ?_, filter_pf_eq h1 dummy u0 us k, fun t ht => ?_⟩
    · have h3 := filter_pf_eq (rng := rng.toPrng) (mdl := mdl) h1 dummy u0.1 (us.map Prod.fst) k
      rw [List.length_map] at h3
      exact h3
    · obtain ⟨h3, h4, ⟨c, h5⟩, h6⟩ := pfRun_scaled (rng := rng.toPrng) (mdl := mdl) h2 u0 us k t ht
      refine ⟨h3, h4, fun i => ?_, h6⟩
      rw [h5, nw_shift]
  rcases hR with rfl | rfl | rfl | rfl | rfl | rfl
  · exact key _ _ (uses_multinomial rng pf) (shiftInvariant_multinomial rng pf)
  · exact key _ _ (uses_systematic rng pf) (shiftInvariant_systematic rng pf)
  · exact key _ _ (uses_killing rng pf) (shiftInvariant_killing rng pf)
  · exact key _ _ (uses_adaptive (uses_multinomial rng pf) θ) ((shiftInvariant_multinomial rng pf).adaptive θ)
  · exact key _ _ (uses_adaptive (uses_systematic rng pf) θ) ((shiftInvariant_systematic rng pf).adaptive θ)
  · exact key _ _ (uses_adaptive (uses_killing rng pf) θ) ((shiftInvariant_killing rng pf).adaptive θ)

end

end Cuthbert.SMC
