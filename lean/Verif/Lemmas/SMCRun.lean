import Verif.Lemmas.SMC
import Verif.Lemmas.Interface

/-!
# Runs of the particle filter
-/

namespace Cuthbert.SMC
open MeasureTheory Set Resampling Spec
open scoped ENNReal

noncomputable section

variable {K X Inp : Type} {N : ℕ}

theorem keyAt_nth (rng : Prng K) (k : K) (n t : ℕ) (h : t < n) :
    keyAt rng (some k) n t = some (rng.nth k n ⟨t, h⟩) := by
  simp only [keyAt, Option.bind_some, Prng.nth, Fin.getElem_fin]
  exact List.getElem?_eq_getElem _

/-- The core of a state. -/
def PFState.core (s : PFState K X Inp N) : Core X N := (s.particles, s.logWeights, s.logZ)

/-- The state after a step, for a resampler with indices `I` and log-weights `L`. -/
def stepTo (rng : Prng K) (mdl : FKModel K X Inp) (I : K → (Fin N → Fl) → Fin N → Fin N)
    (L : K → (Fin N → Fl) → Fin N → Fl) (s : PFState K X Inp N) (u : Inp) (k : K) :
    PFState K X Inp N :=
  let c := coreStep mdl I L u (rng.nth s.key (N + 1)) s.core
  ⟨k, c.1, c.2.1, I (rng.nth s.key (N + 1) 0) s.logWeights, u, c.2.2⟩

/-- The state at time `t` when the filter continues from `s`. -/
def pfAt (rng : Prng K) (mdl : FKModel K X Inp) (I : K → (Fin N → Fl) → Fin N → Fin N)
    (L : K → (Fin N → Fl) → Fin N → Fl) :
    (us : List Inp) → ℕ → PFState K X Inp N → (Fin us.length → K) → PFState K X Inp N
  | [], _, s, _ => s
  | _ :: _, 0, s, _ => s
  | u :: us, t + 1, s, keys =>
    pfAt rng mdl I L us t (stepTo rng mdl I L s u (keys 0)) (Fin.tail keys)

section

variable {rng : Prng K} {mdl : FKModel K X Inp} {I : K → (Fin N → Fl) → Fin N → Fin N}
  {L : K → (Fin N → Fl) → Fin N → Fl}

theorem core_pfAt : ∀ (us : List Inp) (t : ℕ) (s : PFState K X Inp N) (keys : Fin us.length → K),
    (pfAt rng mdl I L us t s keys).core = coreAt rng mdl I L us t s.key s.core keys
  | [], _, _, _ => rfl
  | _ :: _, 0, _, _ => rfl
  | u :: us, t + 1, s, keys => core_pfAt us t (stepTo rng mdl I L s u (keys 0)) (Fin.tail keys)

theorem pfAt_zero (us : List Inp) (s : PFState K X Inp N) (keys : Fin us.length → K) :
    pfAt rng mdl I L us 0 s keys = s := by cases us <;> rfl

theorem pfAt_succ : ∀ (us : List Inp) (t : ℕ) (s : PFState K X Inp N) (keys : Fin us.length → K)
    (ht : t < us.length), pfAt rng mdl I L us (t + 1) s keys =
      stepTo rng mdl I L (pfAt rng mdl I L us t s keys) us[t] (keys ⟨t, ht⟩)
  | [], t, _, _, ht => by simp at ht
  | u :: us, 0, s, keys, _ => by
    rw [pfAt_zero]
    exact pfAt_zero us _ _
  | u :: us, t + 1, s, keys, ht => by
    have ht' : t < us.length := by simpa using ht
    rw [pfAt, pfAt_succ us t _ _ ht', pfAt]
    rfl

theorem filterCombine_eq {R : Resampler K N X} (hR : Uses R I L) (s1 s2 : PFState K X Inp N) :
    filterCombine rng mdl R s1 s2 = .ok (stepTo rng mdl I L s1 s2.modelInputs s2.key) := by
  have h1 := hR (rng.nth s1.key (N + 1) 0) s1.logWeights s1.particles
  unfold filterCombine
  simp only [h1]
  rfl

theorem runningFold_pf {R : Resampler K N X} (hR : Uses R I L) (dummy : X) :
    ∀ (us : List Inp) (s : PFState K X Inp N) (keys : Fin us.length → K)
      (es : List (Except Err (PFState K X Inp N))), es.length = us.length →
      (∀ t (ht : t < us.length), es[t]? = some (filterPrepare dummy N us[t] (some (keys ⟨t, ht⟩)))) →
      runningFold (particleFilter rng mdl dummy N R).filterCombine (.ok s) es =
        (List.range (us.length + 1)).map fun t => .ok (pfAt rng mdl I L us t s keys)
  | [], s, keys, es, hlen, _ => by
    have : es = [] := List.length_eq_zero_iff.mp hlen
    subst this
    rfl
  | u :: us, s, keys, [], hlen, _ => by simp at hlen
  | u :: us, s, keys, e :: es, hlen, hes => by
    have h0 := hes 0 (by simp)
    simp only [List.getElem?_cons_zero, List.getElem_cons_zero, Option.some.injEq] at h0
    have h1 : (particleFilter rng mdl dummy N R).filterCombine (.ok s) e =
        .ok (stepTo rng mdl I L s u (keys ⟨0, by simp⟩)) := by
      rw [h0]
      exact filterCombine_eq hR _ _
    rw [runningFold, h1, runningFold_pf hR dummy us _ (Fin.tail keys) es (by simpa using hlen)]
    · have h2 : List.range ((u :: us).length + 1) = 0 :: (List.range (us.length + 1)).map Nat.succ :=
        List.range_succ_eq_map
      rw [h2, List.map_cons, List.map_map, pfAt_zero]
      rfl
    · intro t ht
      have := hes (t + 1) (by simpa using ht)
      simpa [Fin.tail] using this

/-- The initial state. -/
def pfInit (rng : Prng K) (mdl : FKModel K X Inp) (N : ℕ) (u0 : Inp) (k : K) : PFState K X Inp N :=
  ⟨k, fun i => mdl.initSample (rng.nth k N i) u0, fun _ => 0, id, u0, 0⟩

theorem logsumexp_zero [NeZero N] :
    Fl.logsumexp (fun _ : Fin N => (0 : Fl)) = Fl.fin (Real.log N) := by
  have h1 := logsumexp_eq (isLogits_zero (N := N))
  rw [h1]
  simp [Fl.lik]

theorem log_natCast [NeZero N] : Fl.log (Fl.fin (N : ℝ)) = Fl.fin (Real.log N) :=
  Fl.log_fin _ (by exact_mod_cast NeZero.pos N)

theorem initPrepare_eq [NeZero N] (u0 : Inp) (k : K) :
    initPrepare rng mdl N u0 (some k) = .ok (pfInit rng mdl N u0 k) := by
  unfold initPrepare pfInit
  simp only
  rw [logsumexp_zero, log_natCast, Fl.fin_sub, sub_self]
  rfl

/-- The state at time `t` of a run from the key `k`. -/
def pfRun (rng : Prng K) (mdl : FKModel K X Inp) (I : K → (Fin N → Fl) → Fin N → Fin N)
    (L : K → (Fin N → Fl) → Fin N → Fl) (u0 : Inp) (us : List Inp) (k : K) (t : ℕ) :
    PFState K X Inp N :=
  pfAt rng mdl I L us t (pfInit rng mdl N u0 (rng.nth k (us.length + 1) 0))
    (Fin.tail (rng.nth k (us.length + 1)))

theorem pfRun_zero (u0 : Inp) (us : List Inp) (k : K) : pfRun rng mdl I L u0 us k 0 =
    pfInit rng mdl N u0 (rng.nth k (us.length + 1) 0) := pfAt_zero _ _ _

theorem pfRun_succ (u0 : Inp) (us : List Inp) (k : K) (t : ℕ) (ht : t < us.length) :
    pfRun rng mdl I L u0 us k (t + 1) = stepTo rng mdl I L (pfRun rng mdl I L u0 us k t) us[t]
      (rng.nth k (us.length + 1) ⟨t + 1, by omega⟩) := pfAt_succ _ _ _ _ ht

theorem pfRun_key (u0 : Inp) (us : List Inp) (k : K) : ∀ (t : ℕ) (ht : t ≤ us.length),
    (pfRun rng mdl I L u0 us k t).key = rng.nth k (us.length + 1) ⟨t, by omega⟩
  | 0, _ => by rw [pfRun_zero]; rfl
  | t + 1, ht => by rw [pfRun_succ u0 us k t (by omega)]; rfl

/-- A run of the particle filter never raises, for a resampler that does not. -/
theorem filter_pf_eq [NeZero N] {R : Resampler K N X} (hR : Uses R I L) (dummy : X) (u0 : Inp) (us : List Inp)
    (k : K) : filter rng (particleFilter rng mdl dummy N R) (u0 :: us) false (some k) =
      ⟨false, .ok ((List.range (us.length + 1)).map fun t => .ok (pfRun rng mdl I L u0 us k t))⟩ := by
  have h1 : (filter rng (particleFilter rng mdl dummy N R) (u0 :: us) false (some k)).warned =
      false := by
    unfold filter
    simp only [Bool.false_and, Bool.false_eq_true, if_false]
    split <;> rfl
  have h2 := filter_sequential_eq rng (particleFilter rng mdl dummy N R) u0 us (some k)
  have h3 : (particleFilter rng mdl dummy N R).initPrepare u0
      (keyAt rng (some k) (us.length + 1) 0) =
      .ok (pfInit rng mdl N u0 (rng.nth k (us.length + 1) 0)) := by
    rw [keyAt_nth _ _ _ _ (Nat.succ_pos _)]
    exact initPrepare_eq u0 _
  rw [h3, runningFold_pf hR dummy us _ (Fin.tail (rng.nth k (us.length + 1))) _
    (filterElems_length _ _ _ _)] at h2
  · generalize filter rng (particleFilter rng mdl dummy N R) (u0 :: us) false (some k) = o at h1 h2
    obtain ⟨w, r⟩ := o
    simp only at h1 h2
    rw [h1, h2]
    rfl
  · intro t ht
    rw [filterElems_get, List.getElem?_eq_getElem ht, keyAt_nth _ _ _ _ (by omega)]
    rfl

end

/-! ### Paths -/

/-- The model whose particles are the paths so far, latest state first. -/
def pathModel (mdl : FKModel K X Inp) : FKModel K (ℕ → X) Inp where
  initSample k u := fun _ => mdl.initSample k u
  propagate k p u := pathCons (mdl.propagate k (p 0) u) p
  logPotential p p' u := mdl.logPotential (p 0) (p' 0) u

theorem lineage_self (A : ℕ → Fin N → Fin N) : ∀ (t : ℕ) (i : Fin N) (s : ℕ), t ≤ s → lineage A t i s = i
  | 0, _, _, _ => rfl
  | t + 1, i, s, h => by rw [lineage, if_neg (by omega)]

theorem ancestralPath_self (xs : ℕ → Fin N → X) (A : ℕ → Fin N → Fin N) (t : ℕ) (i : Fin N) :
    ancestralPath xs A t i t = xs t i := by
  rw [ancestralPath, min_self, lineage_self A t i t le_rfl]

theorem ancestralPath_succ (xs : ℕ → Fin N → X) (A : ℕ → Fin N → Fin N) (t : ℕ) (i : Fin N) (s : ℕ)
    (hs : s ≤ t) : ancestralPath xs A (t + 1) i s = ancestralPath xs A t (A (t + 1) i) s := by
  rw [ancestralPath, ancestralPath, lineage, if_pos hs, min_eq_left hs, min_eq_left (by omega)]

section

variable {rng : Prng K} {mdl : FKModel K X Inp} {I : K → (Fin N → Fl) → Fin N → Fin N}
  {L : K → (Fin N → Fl) → Fin N → Fl}

/-- The run on paths is the run, with the ancestral paths as particles. -/
theorem pfRun_path (u0 : Inp) (us : List Inp) (k : K) : ∀ t ≤ us.length,
    (pfRun rng (pathModel mdl) I L u0 us k t).logWeights = (pfRun rng mdl I L u0 us k t).logWeights ∧
    (pfRun rng (pathModel mdl) I L u0 us k t).logZ = (pfRun rng mdl I L u0 us k t).logZ ∧
    ∀ i, (pfRun rng (pathModel mdl) I L u0 us k t).particles i = fun s =>
      ancestralPath (fun t => (pfRun rng mdl I L u0 us k t).particles)
        (fun t => (pfRun rng mdl I L u0 us k t).ancestors) t i (t - s)
  | 0, _ => by
    refine ⟨?_, ?_, fun i => funext fun s => ?_⟩
    · simp only [pfRun_zero, pfInit]
    · simp only [pfRun_zero, pfInit]
    · rw [Nat.zero_sub, ancestralPath_self]
      simp only [pfRun_zero, pfInit]
      rfl
  | t + 1, ht => by
    obtain ⟨h1, h2, h3⟩ := pfRun_path u0 us k t (by omega)
    have hk : (pfRun rng (pathModel mdl) I L u0 us k t).key = (pfRun rng mdl I L u0 us k t).key := by
      rw [pfRun_key u0 us k t (by omega), pfRun_key u0 us k t (by omega)]
    have ht' : t < us.length := by omega
    have e1 := pfRun_succ (rng := rng) (mdl := mdl) (I := I) (L := L) u0 us k t ht'
    have e2 := pfRun_succ (rng := rng) (mdl := pathModel mdl) (I := I) (L := L) u0 us k t ht'
    generalize pfRun rng mdl I L u0 us k = S at *
    generalize pfRun rng (pathModel mdl) I L u0 us k = S' at *
    -- the resampled particles
    have hpos : ∀ i, (S' t).particles i 0 = (S t).particles i := by
      intro i
      rw [h3 i]
      exact ancestralPath_self _ _ _ _
    have hnext : ∀ m, (S' (t + 1)).particles m = pathCons ((S (t + 1)).particles m)
        ((S' t).particles (I (rng.nth (S t).key (N + 1) 0) (S t).logWeights m)) := by
      intro m
      rw [e1, e2]
      simp only [stepTo, coreStep, PFState.core, pathModel, hk, h1, hpos]
    have hlw : (S' (t + 1)).logWeights = (S (t + 1)).logWeights := by
      rw [e1, e2]
      simp only [stepTo, coreStep, PFState.core, pathModel, hk, h1, hpos]
      rfl
    refine ⟨hlw, ?_, fun i => funext fun s => ?_⟩
    · rw [e1, e2]
      simp only [stepTo, coreStep, PFState.core, pathModel, hk, h1, h2, hpos]
      rfl
    · rw [hnext]
      cases s with
      | zero =>
        rw [Nat.sub_zero, ancestralPath_self]
        rfl
      | succ s =>
        rw [show t + 1 - (s + 1) = t - s by omega, ancestralPath_succ _ _ _ _ _ (by omega)]
        have h4 : (S (t + 1)).ancestors = I (rng.nth (S t).key (N + 1) 0) (S t).logWeights := by
          rw [e1]
          rfl
        rw [h4]
        simp only [pathCons]
        rw [h3]

end

section fk

variable {E : Type*} [MeasurableSpace E]

/-- Only paths that start at `x` matter. -/
theorem fkPathExp_congr : ∀ (ss : List (FKStep E)) (f g : (ℕ → E) → ℝ≥0∞) (x : E),
    (∀ p, p 0 = x → f p = g p) → fkPathExp ss f x = fkPathExp ss g x
  | [], f, g, x, h => h _ rfl
  | s :: ss, f, g, x, h => by
    rw [fkPathExp, fkPathExp]
    refine lintegral_congr fun x' => ?_
    rw [fkPathExp_congr ss (fun p => f (pathCons x p)) (fun p => g (pathCons x p)) x' fun p _ =>
      h _ rfl]

variable [MeasurableSpace K] [MeasurableSpace X] {P : Measure K} [IsProbabilityMeasure P]
  {mdl : FKModel K X Inp}

omit [IsProbabilityMeasure P] in
theorem pathModel_regular {u : Inp} (hu : mdl.Regular u) : (pathModel mdl).Regular u where
  propagate := by
    refine measurable_pi_iff.mpr fun s => ?_
    cases s with
    | zero =>
      exact hu.propagate.comp (measurable_fst.prodMk ((measurable_pi_apply 0).comp measurable_snd))
    | succ s => exact (measurable_pi_apply s).comp measurable_snd
  logPotential := by
    have h1 : Measurable fun q : (ℕ → X) × (ℕ → X) => (q.1 0, q.2 0) :=
      ((measurable_pi_apply 0).comp measurable_fst).prodMk
        ((measurable_pi_apply 0).comp measurable_snd)
    exact Measurable.comp (f := fun q : (ℕ → X) × (ℕ → X) => (q.1 0, q.2 0)) hu.logPotential h1
  isLog := fun _ _ => hu.isLog _ _

/-- The recursion for the expectation of a function of the path. -/
def pathG (P : Measure K) (mdl : FKModel K X Inp) : List Inp → ((ℕ → X) → ℝ≥0∞) → X → ℝ≥0∞
  | [], f, x => f fun _ => x
  | u :: us, f, x => ∫⁻ k, ENNReal.ofReal (mdl.logPotential x (mdl.propagate k x u) u).lik *
      pathG P mdl us (fun p => f (pathCons x p)) (mdl.propagate k x u) ∂P

omit [MeasurableSpace X] [IsProbabilityMeasure P] in
theorem pathG_congr : ∀ (us : List Inp) (f g : (ℕ → X) → ℝ≥0∞) (x : X),
    (∀ p, p 0 = x → f p = g p) → pathG P mdl us f x = pathG P mdl us g x
  | [], f, g, x, h => h _ rfl
  | s :: ss, f, g, x, h => by
    rw [pathG, pathG]
    refine lintegral_congr fun k => ?_
    rw [pathG_congr ss (fun p => f (pathCons x p)) (fun p => g (pathCons x p)) _ fun p _ => h _ rfl]

omit [MeasurableSpace X] [IsProbabilityMeasure P] in
theorem fkG_path (us : List Inp) (f : (ℕ → X) → ℝ≥0∞) : ∀ (t : ℕ) (p : ℕ → X),
    fkG P (pathModel mdl) (fun q => f fun s => q (t + us.length - s)) us us.length p =
      pathG P mdl us (fun q => f fun s => if s ≤ t then p (t - s) else q (s - t)) (p 0) := by
  induction us with
  | nil =>
    intro t p
    simp only [fkG, pathG, List.length_nil, add_zero]
    congr 1
    funext s
    split_ifs with h
    · rfl
    · rw [Nat.sub_eq_zero_of_le (by omega)]
  | cons u us ih =>
    intro t p
    simp only [List.length_cons, fkG, fkQ, pathG]
    refine lintegral_congr fun k => ?_
    congr 1
    rw [show t + (us.length + 1) = t + 1 + us.length by omega, ih (t + 1)]
    refine pathG_congr us _ _ _ fun q hq => ?_
    congr 1
    funext s
    have hq' : q 0 = mdl.propagate k (p 0) u := hq
    rcases Nat.lt_trichotomy s (t + 1) with h | h | h
    · rw [if_pos (by omega), if_pos (by omega), show t + 1 - s = (t - s) + 1 by omega]
      rfl
    · subst h
      rw [if_pos le_rfl, if_neg (by omega), Nat.sub_self, show t + 1 - t = 0 + 1 by omega]
      exact hq'.symm
    · rw [if_neg (by omega), if_neg (by omega), show s - t = (s - (t + 1)) + 1 by omega]
      rfl

theorem measurable_pathG {us : List Inp} {f : (ℕ → X) → ℝ≥0∞} (hf : Measurable f)
    (hu : ∀ u ∈ us, mdl.Regular u) (x : X) :
    Measurable fun x' => pathG P mdl us (fun p => f (pathCons x p)) x' := by
  have h1 : ∀ x', pathG P mdl us (fun p => f (pathCons x p)) x' =
      fkG P (pathModel mdl) (fun q => f fun s => q (1 + us.length - s)) us us.length
        (pathCons x' fun _ => x) := by
    intro x'
    rw [fkG_path us f 1]
    refine pathG_congr us _ _ _ fun q hq => ?_
    congr 1
    funext s
    match s with
    | 0 => rfl
    | 1 => exact hq
    | s + 2 => rfl
  simp only [h1]
  have h2 : Measurable fun q : ℕ → X => f fun s => q (1 + us.length - s) :=
    hf.comp (measurable_pi_iff.mpr fun s => measurable_pi_apply _)
  have h3 : Measurable fun x' : X => (pathCons x' fun _ => x : ℕ → X) := by
    refine measurable_pi_iff.mpr fun s => ?_
    cases s with
    | zero => exact measurable_id
    | succ s => exact measurable_const
  exact (measurable_fkG h2 us us.length fun u h => pathModel_regular (hu u h)).comp h3

theorem pathG_eq : ∀ (us : List Inp) (f : (ℕ → X) → ℝ≥0∞) (x : X), Measurable f →
    (∀ u ∈ us, mdl.Regular u) →
    pathG P mdl us f x = fkPathExp (us.map (mdl.step P)) f x
  | [], _, _, _, _ => rfl
  | u :: us, f, x, hf, hu => by
    have hu' : ∀ u' ∈ us, mdl.Regular u' := fun u' h' => hu u' (by simp [h'])
    have hur := hu u (by simp)
    have hfc : Measurable fun p : ℕ → X => f (pathCons x p) := by
      refine hf.comp (measurable_pi_iff.mpr fun s => ?_)
      cases s with
      | zero => exact measurable_const
      | succ s => exact measurable_pi_apply s
    simp only [List.map_cons, fkPathExp, ← pathG_eq us (fun p => f (pathCons x p)) _ hfc hu']
    have h1 : Measurable fun x' => (mdl.step P u).pot x x' *
        pathG P mdl us (fun p => f (pathCons x p)) x' := by
      have h2 : Measurable fun x' => mdl.logPotential x x' u :=
        hur.logPotential.comp (measurable_const.prodMk measurable_id)
      exact (ENNReal.measurable_ofReal.comp (Fl.measurable_lik.comp h2)).mul
        (measurable_pathG hf hu' x)
    have h3 : Measurable fun k => mdl.propagate k x u :=
      hur.propagate.comp (measurable_id.prodMk measurable_const)
    change _ = ∫⁻ x', (mdl.step P u).pot x x' * pathG P mdl us (fun p => f (pathCons x p)) x'
      ∂(P.map fun k => mdl.propagate k x u)
    rw [lintegral_map h1 h3]
    rfl

/-- Expectations over paths through the model on paths. -/
theorem fkG_path_init (us : List Inp) {f : (ℕ → X) → ℝ≥0∞} (hf : Measurable f)
    (hu : ∀ u ∈ us, mdl.Regular u) {u0 : Inp} (h0 : Measurable fun k => mdl.initSample k u0) :
    ∫⁻ p, fkG P (pathModel mdl) (fun q => f fun s => q (us.length - s)) us us.length p
        ∂(pathModel mdl).init P u0 =
      fkExp (mdl.init P u0) (us.map (mdl.step P)) f := by
  have h1 : ∀ p, fkG P (pathModel mdl) (fun q => f fun s => q (us.length - s)) us us.length p =
      pathG P mdl us f (p 0) := by
    intro p
    have h2 := fkG_path (P := P) (mdl := mdl) us f 0 p
    rw [Nat.zero_add] at h2
    rw [h2]
    refine pathG_congr us _ _ _ fun q hq => ?_
    congr 1
    funext s
    match s with
    | 0 => exact hq.symm
    | s + 1 => rfl
  have hm : Measurable (fkG P (pathModel mdl) (fun q => f fun s => q (us.length - s)) us us.length) := by
    have h2 : Measurable fun q : ℕ → X => f fun s => q (us.length - s) :=
      hf.comp (measurable_pi_iff.mpr fun s => measurable_pi_apply _)
    exact measurable_fkG h2 us us.length fun u h => pathModel_regular (hu u h)
  have hi : Measurable fun k => (pathModel mdl).initSample k u0 :=
    measurable_pi_iff.mpr fun _ => h0
  have hx : Measurable fun x => pathG P mdl us f x := by
    have h3 : Measurable fun x : X => (fun _ => x : ℕ → X) :=
      measurable_pi_iff.mpr fun _ => measurable_id
    have h4 := hm.comp h3
    simpa only [Function.comp_def, h1] using h4
  rw [FKModel.init, lintegral_map hm hi]
  simp only [h1]
  rw [fkExp, FKModel.init]
  simp only [← pathG_eq us f _ hf hu]
  rw [lintegral_map hx h0]
  rfl

end fk

end

end Cuthbert.SMC
