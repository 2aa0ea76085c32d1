import Verif.Props.EvidenceBounds
import Verif.Lemmas.SMCResamplers

/-!
# C120: the two ends of the threshold of adaptive resampling

With threshold zero the particle filter is sequential importance sampling, with a threshold above one it is the filter of
the wrapped resampling function.
-/

namespace Cuthbert.SMC
open Resampling Spec

noncomputable section

variable {K X Inp : Type} {N : ℕ}

theorem ltb_log_nonpos (a : Fl) {r : ℝ} (hr : r ≤ 0) : Fl.ltb a (Fl.log (Fl.fin r)) = false := by
  rw [Bool.eq_false_iff, Ne, Fl.ltb_iff, Fl.lt_def]
  rcases hr.lt_or_eq with h | h
  · simp only [Fl.log, not_lt.2 h.le, if_false, h.ne]
    cases a <;> simp [Fl.lt]
  · simp only [Fl.log, h, lt_irrefl, if_false, if_true]
    cases a <;> simp [Fl.lt]

/-- With a threshold of zero or less nothing is resampled, whatever the wrapped function does. -/
theorem uses_adaptive_zero (R : Resampler K N X) {θ : ℝ} (hθ : θ ≤ 0) :
    Uses (adaptive R θ) (fun _ _ => id) (fun _ l => l) := by
  intro k l pos
  rw [adaptive, dif_pos rfl, ltb_log_nonpos _ (mul_nonpos_of_nonpos_of_nonneg hθ (Nat.cast_nonneg N))]
  rfl

/-- A particle that was dead stays dead when nothing is resampled. -/
theorem isLogits_of_add {p l : Fin N → Fl} (hl : ∀ i, (l i).IsLog) (h : IsLogits fun i => p i + l i) : IsLogits l := by
  obtain ⟨i, hi⟩ := h.2
  refine ⟨hl, i, ?_⟩
  have h1 := hl i
  revert hi h1
  beta_reduce
  cases p i <;> cases l i <;> simp [Fl.add_def, Fl.add, Fl.IsFin, Fl.IsLog]

/-- C120: with threshold zero (or less) the particle filter is sequential importance sampling, whatever function is
wrapped. It returns a state for every time; every particle is its own ancestor and moves by its own keys; its weight is
the product of the potentials along its path; and as long as some particle is alive, the log normalising constant is the
logarithm of the average of these products. -/
theorem adaptive_zero_importance_sampling [NeZero N] (rng : Prng K) {mdl : FKModel K X Inp}
    (hp : ∀ x x' u, (mdl.logPotential x x' u).IsLog) (dummy : X) (R : Resampler K N X) {θ : ℝ} (hθ : θ ≤ 0)
    (u0 : Inp) (us : List Inp) (k : K) :
    ∃ S : ℕ → PFState K X Inp N,
      filter rng (particleFilter rng mdl dummy N (adaptive R θ)) (u0 :: us) false (some k) =
        ⟨false, .ok ((List.range (us.length + 1)).map fun t => .ok (S t))⟩ ∧
      (∀ t ≤ us.length, ∀ i, (S t).ancestors i = i) ∧
      (∀ i, (S 0).particles i = mdl.initSample (rng.nth (rng.nth k (us.length + 1) 0) N i) u0) ∧
      (∀ t (ht : t < us.length) (i : Fin N), (S (t + 1)).particles i =
        mdl.propagate (rng.nth (rng.nth k (us.length + 1) ⟨t, by omega⟩) (N + 1) i.succ) ((S t).particles i) us[t]) ∧
      (∀ t (ht : t ≤ us.length) (i : Fin N), ((S t).logWeights i).IsLog ∧ ((S t).logWeights i).lik =
        ∏ s : Fin t, (mdl.logPotential ((S s).particles i) ((S (s + 1)).particles i) us[s]).lik) ∧
      ∀ t ≤ us.length, (∃ i, ((S t).logWeights i).IsFin) →
        (S t).logZ = Fl.fin (Real.log ((∑ i, ((S t).logWeights i).lik) / N)) := by
  have hU := uses_adaptive_zero (N := N) R hθ
  have hw : ∀ t ≤ us.length, ∀ i,
      ((pfRun rng mdl (fun _ _ => id) (fun _ l => l) u0 us k t : PFState K X Inp N).logWeights i).IsLog := by
    intro t
    induction t with
    | zero => intro _ i; rw [pfRun_zero]; trivial
    | succ t ih =>
      intro ht i
      rw [pfRun_succ u0 us k t ht]
      exact (hp _ _ _).add (ih (by omega) i)
  refine ⟨pfRun rng mdl _ _ u0 us k, filter_pf_eq hU dummy u0 us k, ?_, ?_, ?_, ?_, ?_⟩
  · intro t ht i
    cases t with
    | zero => rw [pfRun_zero]; rfl
    | succ t => rw [pfRun_succ u0 us k t ht]; rfl
  · intro i; rw [pfRun_zero]; rfl
  · intro t ht i
    rw [pfRun_succ u0 us k t ht, ← pfRun_key u0 us k t ht.le]
    rfl
  · intro t ht i
    refine ⟨hw t ht i, ?_⟩
    induction t with
    | zero =>
      rw [pfRun_zero]
      simp [pfInit, Fl.zero_def, Fl.lik]
    | succ t ih =>
      rw [Fin.prod_univ_castSucc]
      refine Eq.trans ?_ (congrArg (· * _) (ih (by omega)))
      have h1 : ((Fin.last t : Fin (t + 1)) : ℕ) = t := rfl
      simp only [h1]
      rw [pfRun_succ u0 us k t ht]
      exact (Fl.lik_add (hp _ _ _) (hw t (by omega) i)).trans (mul_comm _ _)
  · intro t ht
    have hN : (0 : ℝ) < N := by exact_mod_cast NeZero.pos N
    induction t with
    | zero =>
      intro _
      rw [pfRun_zero]
      simp [pfInit, Fl.zero_def, Fl.lik, hN.ne']
    | succ t ih =>
      intro ha
      have hl : IsLogits (pfRun rng mdl (fun _ _ => id) (fun _ l => l) u0 us k (t + 1) : PFState K X Inp N).logWeights :=
        ⟨hw _ ht, ha⟩
      have hl' : IsLogits (pfRun rng mdl (fun _ _ => id) (fun _ l => l) u0 us k t : PFState K X Inp N).logWeights := by
        rw [pfRun_succ u0 us k t ht] at hl
        exact isLogits_of_add (hw t (by omega)) hl
      have h1 := ih (by omega) hl'.2
      have h2 : (pfRun rng mdl (fun _ _ => id) (fun _ l => l) u0 us k (t + 1) : PFState K X Inp N).logZ =
          Fl.logsumexp (pfRun rng mdl (fun _ _ => id) (fun _ l => l) u0 us k (t + 1) : PFState K X Inp N).logWeights -
            Fl.logsumexp (pfRun rng mdl (fun _ _ => id) (fun _ l => l) u0 us k t : PFState K X Inp N).logWeights +
            (pfRun rng mdl (fun _ _ => id) (fun _ l => l) u0 us k t : PFState K X Inp N).logZ := by
        rw [pfRun_succ u0 us k t ht]; rfl
      rw [h2, h1, logsumexp_eq hl, logsumexp_eq hl', Fl.fin_sub, Fl.fin_add,
        Real.log_div (sum_lik_pos hl').ne' hN.ne', Real.log_div (sum_lik_pos hl).ne' hN.ne']
      congr 1
      ring

/-- C120: with a threshold above one the wrapped function is always called on valid weights. -/
theorem adaptive_above_one (R : Resampler K N X) {θ : ℝ} (hθ : 1 < θ) (k : K) {l : Fin N → Fl} (hl : IsLogits l)
    (pos : Fin N → X) : adaptive R θ k l pos N = R k l pos N := by
  obtain ⟨r, hr, h1, -⟩ := adaptive_iff R θ k hl pos
  obtain ⟨r', hr', h2, h3⟩ := ess_mem hl
  have : r = r' := Fl.fin.inj (hr.symm.trans hr')
  refine h1 ?_
  subst this
  nlinarith

theorem pfRun_above_one [NeZero N] (rng : Prng K) (mdl : FKModel K X Inp) (I : K → (Fin N → Fl) → Fin N → Fin N)
    (L : K → (Fin N → Fl) → Fin N → Fl) {θ : ℝ} (hθ : 1 < θ) (u0 : Inp) (us : List Inp) (k : K) (t : ℕ) :
    t ≤ us.length → (∀ s < t, IsLogits (pfRun rng mdl I L u0 us k s).logWeights) →
      pfRun rng mdl (adaptIdx I θ) (adaptLogits L θ) u0 us k t = pfRun rng mdl I L u0 us k t := by
  induction t with
  | zero => intro _ _; rw [pfRun_zero, pfRun_zero]
  | succ t ih =>
    intro ht h
    rw [pfRun_succ u0 us k t ht, pfRun_succ u0 us k t ht, ih (by omega) fun s hs => h s (by omega)]
    have hl := h t (by omega)
    obtain ⟨s, hs⟩ : ∃ s, s = pfRun rng mdl I L u0 us k t := ⟨_, rfl⟩
    rw [← hs] at hl ⊢
    have hc : Fl.ltb (logEss s.logWeights) (Fl.log (Fl.fin (θ * N))) = true := by
      obtain ⟨r, hr, h1, h2⟩ := ess_mem hl
      have hN : (0 : ℝ) < N := by exact_mod_cast NeZero.pos N
      rw [ess_eq hl] at hr
      rw [logEss_eq hl, Fl.fin.inj hr, Fl.log_fin _ (by positivity), Fl.ltb_fin]
      exact Real.log_lt_log (by linarith) (by nlinarith)
    have hI : ∀ k', adaptIdx I θ k' s.logWeights = I k' s.logWeights := fun k' => if_pos hc
    have hL : ∀ k', adaptLogits L θ k' s.logWeights = L k' s.logWeights := fun k' => if_pos hc
    simp only [stepTo, coreStep, PFState.core, hI, hL]

/-- C120: with a threshold above one the particle filter's states are those with the wrapped resampling function, up to
and including the first time at which no particle is alive. -/
theorem adaptive_above_one_run [NeZero N] (rng : Prng K) (mdl : FKModel K X Inp) (dummy : X) {R : Resampler K N X}
    {I : K → (Fin N → Fl) → Fin N → Fin N} {L : K → (Fin N → Fl) → Fin N → Fl} (hR : Uses R I L) {θ : ℝ} (hθ : 1 < θ)
    (u0 : Inp) (us : List Inp) (k : K) :
    ∃ S S' : ℕ → PFState K X Inp N,
      filter rng (particleFilter rng mdl dummy N (adaptive R θ)) (u0 :: us) false (some k) =
        ⟨false, .ok ((List.range (us.length + 1)).map fun t => .ok (S t))⟩ ∧
      filter rng (particleFilter rng mdl dummy N R) (u0 :: us) false (some k) =
        ⟨false, .ok ((List.range (us.length + 1)).map fun t => .ok (S' t))⟩ ∧
      ∀ t ≤ us.length, (∀ s < t, IsLogits (S' s).logWeights) → S t = S' t :=
  ⟨_, _, filter_pf_eq (uses_adaptive hR θ) dummy u0 us k, filter_pf_eq hR dummy u0 us k,
    fun t => pfRun_above_one rng mdl I L hθ u0 us k t⟩

/-- C120: with finite log potentials and a threshold above one, adaptive resampling changes nothing, for functions that
return finite log-weights. -/
theorem adaptive_above_one_same [NeZero N] (rng : Prng K) {mdl : FKModel K X Inp}
    (hp : ∀ x x' u, (mdl.logPotential x x' u).IsFin) (dummy : X) {R : Resampler K N X}
    {I : K → (Fin N → Fl) → Fin N → Fin N} {L : K → (Fin N → Fl) → Fin N → Fl} (hR : Uses R I L)
    (hL : ∀ k l i, (∀ j, (l j).IsFin) → (L k l i).IsFin) {θ : ℝ} (hθ : 1 < θ) (u0 : Inp) (us : List Inp) (k : K) :
    filter rng (particleFilter rng mdl dummy N (adaptive R θ)) (u0 :: us) false (some k) =
      filter rng (particleFilter rng mdl dummy N R) (u0 :: us) false (some k) := by
  have h5 : ∀ t ≤ us.length, ∀ i, ((pfRun rng mdl I L u0 us k t).logWeights i).IsFin := by
    intro t
    induction t with
    | zero => intro _ i; rw [pfRun_zero]; trivial
    | succ t ih =>
      intro ht i
      rw [pfRun_succ u0 us k t ht]
      exact (hp _ _ _).add (hL _ _ _ (ih (by omega)))
  rw [filter_pf_eq (uses_adaptive hR θ) dummy u0 us k, filter_pf_eq hR dummy u0 us k]
  congr 2
  refine List.map_congr_left fun t ht => ?_
  have ht' := List.mem_range.1 ht
  rw [pfRun_above_one rng mdl I L hθ u0 us k t (by omega) fun s hs => isLogits_of_fin (h5 s (by omega))]

/-- The library's resampling functions meet the hypotheses. -/
example [NeZero N] (rng : Rng K) (pf : Platform) {mdl : FKModel K X Inp}
    (hp : ∀ x x' u, (mdl.logPotential x x' u).IsFin) (dummy : X) {θ : ℝ} (hθ : 1 < θ) (u0 : Inp) (us : List Inp) (k : K)
    {R : Resampler K N X} (hR : R = multinomial rng pf ∨ R = systematic rng pf ∨ R = killing rng pf) :
    filter rng.toPrng (particleFilter rng.toPrng mdl dummy N (adaptive R θ)) (u0 :: us) false (some k) =
      filter rng.toPrng (particleFilter rng.toPrng mdl dummy N R) (u0 :: us) false (some k) := by
  rcases hR with rfl | rfl | rfl
  · exact adaptive_above_one_same _ hp dummy (uses_multinomial rng pf) (fun _ _ _ _ => trivial) hθ u0 us k
  · exact adaptive_above_one_same _ hp dummy (uses_systematic rng pf) (fun _ _ _ _ => trivial) hθ u0 us k
  · exact adaptive_above_one_same _ hp dummy (uses_killing rng pf) (fun _ _ _ _ => trivial) hθ u0 us k

/-- A model with a potential that can vanish. -/
example (rng : Rng K) : ∃ mdl : FKModel K ℝ ℝ, (∀ x x' u, (mdl.logPotential x x' u).IsLog) ∧
    (∃ x x' u, (mdl.logPotential x x' u).lik = 0) ∧ ∃ x x' u, (mdl.logPotential x x' u).lik = 1 := by
  refine ⟨⟨fun k _ => rng.uniform0 k, fun k x _ => x + rng.uniform0 k, fun _ x' u => if u ≤ x' then Fl.fin 0 else Fl.ninf⟩,
    fun x x' u => ?_, ⟨0, 0, 1, ?_⟩, 0, 1, 1, ?_⟩
  · dsimp only; split <;> trivial
  · norm_num [Fl.lik]
  · norm_num [Fl.lik]

end

end Cuthbert.SMC
