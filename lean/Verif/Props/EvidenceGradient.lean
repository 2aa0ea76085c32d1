import Verif.Props.AdaptiveThreshold
import Verif.Props.ParticleFilterKeys
import Verif.Lemmas.FlatResampling
import Mathlib.Analysis.SpecialFunctions.ExpDeriv
import Mathlib.Analysis.SpecialFunctions.Log.Deriv
import Mathlib.MeasureTheory.Constructions.Pi

/-!
# C121: differentiating the log normalising constant of a particle filter

The full property is: for a fixed key, the derivative of the log normalising constant with respect to a parameter of the
potentials estimates the score, the derivative of the log evidence. It holds if nothing is resampled. With resampling it is
false of the code.
-/

namespace Cuthbert.SMC
open MeasureTheory Resampling Spec Filter
open scoped ENNReal Topology

noncomputable section

variable {K X Inp : Type} {N : ℕ}

/-- Models that depend on a parameter only through finite log potentials `g θ`, which have the derivative `g'` at `θ₀`. -/
structure PotentialFamily (mdl : ℝ → FKModel K X Inp) (g : ℝ → X → X → Inp → ℝ) (g' : X → X → Inp → ℝ) (θ₀ : ℝ) : Prop where
  init : ∀ θ k u, (mdl θ).initSample k u = (mdl θ₀).initSample k u
  propagate : ∀ θ k x u, (mdl θ).propagate k x u = (mdl θ₀).propagate k x u
  logPotential : ∀ θ x x' u, (mdl θ).logPotential x x' u = Fl.fin (g θ x x' u)
  deriv : ∀ x x' u, HasDerivAt (fun θ => g θ x x' u) (g' x x' u) θ₀

/-- The derivative of `log ∑ exp` is the weighted average of the derivatives. -/
theorem hasDerivAt_logsumexp [NeZero N] {f : ℝ → Fin N → ℝ} {f' : Fin N → ℝ} {θ₀ : ℝ}
    (h : ∀ i, HasDerivAt (fun θ => f θ i) (f' i) θ₀) :
    HasDerivAt (fun θ => Real.log (∑ i, Real.exp (f θ i))) (∑ i, nw (fun i => Fl.fin (f θ₀ i)) i * f' i) θ₀ := by
  have hs : ∑ i, Real.exp (f θ₀ i) ≠ 0 := (Finset.sum_pos (fun i _ => Real.exp_pos _) Finset.univ_nonempty).ne'
  have h1 : HasDerivAt (fun θ => ∑ i, Real.exp (f θ i)) (∑ i, Real.exp (f θ₀ i) * f' i) θ₀ :=
    HasDerivAt.fun_sum fun i _ => (h i).exp
  have h2 := h1.log hs
  convert h2 using 1
  rw [Finset.sum_div]
  refine Finset.sum_congr rfl fun i _ => ?_
  simp only [nw, Fl.lik]
  ring

section

variable {mdl : ℝ → FKModel K X Inp} {g : ℝ → X → X → Inp → ℝ} {g' : X → X → Inp → ℝ} {θ₀ : ℝ}

/-- C121, threshold zero: without resampling the derivative of the log normalising constant is the weighted average of the
scores of the paths, the particle approximation of Fisher's identity. Missing: with resampling the derivative is something else, see
`gradient_with_resampling` and `gradient_not_score`. -/
theorem gradient_without_resampling_partial [NeZero N] (rng : Prng K) (hm : PotentialFamily mdl g g' θ₀) (dummy : X)
    (R : Resampler K N X) {c : ℝ} (hc : c ≤ 0) (u0 : Inp) (us : List Inp) (k : K) :
    ∃ (S : ℝ → ℕ → PFState K X Inp N) (z : ℝ → ℕ → ℝ),
      (∀ θ, filter rng (particleFilter rng (mdl θ) dummy N (adaptive R c)) (u0 :: us) false (some k) =
        ⟨false, .ok ((List.range (us.length + 1)).map fun t => .ok (S θ t))⟩) ∧
      (∀ θ, ∀ t ≤ us.length, (S θ t).logZ = Fl.fin (z θ t)) ∧
      ∀ t (ht : t ≤ us.length), HasDerivAt (fun θ => z θ t) (∑ i, nw (S θ₀ t).logWeights i *
        ∑ s : Fin t, g' ((S θ₀ s).particles i) ((S θ₀ (s + 1)).particles i) us[s]) θ₀ := by
  obtain ⟨S, hS⟩ : ∃ S : ℝ → ℕ → PFState K X Inp N, S = fun θ t =>
    pfRun rng (mdl θ) (fun _ _ => id) (fun _ l => l) u0 us k t := ⟨_, rfl⟩
  have hU := uses_adaptive_zero (N := N) (K := K) (X := X) R hc
  have hp : ∀ θ, ∀ t ≤ us.length, (S θ t).particles = (S θ₀ t).particles := by
    intro θ t
    subst hS
    induction t with
    | zero => intro _; simp only [pfRun_zero]; funext i; exact hm.init _ _ _
    | succ t ih =>
      intro ht
      have h1 := ih (by omega)
      simp only [pfRun_succ u0 us k t ht, stepTo, coreStep, PFState.core, pfRun_key u0 us k t (by omega)] at h1 ⊢
      funext i
      rw [hm.propagate, h1]
  have hw : ∀ θ t (ht : t ≤ us.length) (i : Fin N), (S θ t).logWeights i =
      Fl.fin (∑ s : Fin t, g θ ((S θ₀ s).particles i) ((S θ₀ (s + 1)).particles i) us[s]) := by
    intro θ t
    induction t with
    | zero => intro _ i; subst hS; simp only [pfRun_zero]; simp [pfInit, Fl.zero_def]
    | succ t ih =>
      intro ht i
      rw [Fin.sum_univ_castSucc]
      have h1 : (S θ (t + 1)).logWeights i = (mdl θ).logPotential ((S θ t).particles i) ((S θ (t + 1)).particles i) us[t] +
          (S θ t).logWeights i := by
        subst hS
        simp only [pfRun_succ u0 us k t ht]
        rfl
      rw [h1, ih (by omega), hm.logPotential, hp θ t (by omega), hp θ (t + 1) ht, Fl.fin_add]
      exact congrArg Fl.fin (add_comm _ _)
  have hz : ∀ θ, ∀ t ≤ us.length, (S θ t).logZ =
      Fl.fin (Real.log (∑ i, ((S θ t).logWeights i).lik) - Real.log N) := by
    intro θ t ht
    obtain ⟨S', h1, -, -, -, -, h2⟩ := adaptive_zero_importance_sampling rng (mdl := mdl θ) (N := N)
      (fun x x' u => by rw [hm.logPotential]; trivial) dummy R hc u0 us k
    have h3 : S θ t = S' t := by
      have h4 := h1.symm.trans (filter_pf_eq hU dummy u0 us k)
      have h5 := congrArg (fun o => match o.result with | .ok l => l[t]? | .error _ => none) h4
      simp only [List.getElem?_map, List.getElem?_range (show t < us.length + 1 by omega), Option.map_some,
        Option.some.injEq, Except.ok.injEq] at h5
      rw [hS, h5]
    have h6 : IsLogits (S θ t).logWeights := isLogits_of_fin fun i => by rw [hw θ t ht]; trivial
    have hN : (N : ℝ) ≠ 0 := by exact_mod_cast NeZero.ne N
    have h7 := h2 t ht ⟨0, by rw [← h3, hw θ t ht]; trivial⟩
    rw [← h3] at h7
    rw [h7, Real.log_div (sum_lik_pos h6).ne' hN]
  refine ⟨S, fun θ t => Real.log (∑ i, ((S θ t).logWeights i).lik) - Real.log N, fun θ => ?_, hz, fun t ht => ?_⟩
  · rw [filter_pf_eq hU dummy u0 us k, hS]
  · have h1 : ∀ i, HasDerivAt (fun θ => ∑ s : Fin t, g θ ((S θ₀ s).particles i) ((S θ₀ (s + 1)).particles i) us[s])
        (∑ s : Fin t, g' ((S θ₀ s).particles i) ((S θ₀ (s + 1)).particles i) us[s]) θ₀ := fun i =>
      HasDerivAt.fun_sum fun s _ => hm.deriv _ _ _
    have h2 := (hasDerivAt_logsumexp h1).sub_const (Real.log N)
    have h3 : ∀ θ, (S θ t).logWeights = fun i =>
      Fl.fin (∑ s : Fin t, g θ ((S θ₀ s).particles i) ((S θ₀ (s + 1)).particles i) us[s]) := fun θ => funext (hw θ t ht)
    simp only [h3, Fl.lik]
    exact h2

/-! ### With resampling -/

/-- The finite log normalising constant of a run that resets the weights. -/
theorem resampled_logZ [NeZero N] (rng : Prng K) {m : FKModel K X Inp} {γ : X → X → Inp → ℝ}
    (hg : ∀ x x' u, m.logPotential x x' u = Fl.fin (γ x x' u)) (I : K → (Fin N → Fl) → Fin N → Fin N)
    (u0 : Inp) (us : List Inp) (k : K) : ∀ t (ht : t ≤ us.length),
    (pfRun rng m I zeroLogits u0 us k t).logZ = Fl.fin (∑ s : Fin t, (Real.log (∑ i, Real.exp
      (γ ((pfRun rng m I zeroLogits u0 us k s).particles ((pfRun rng m I zeroLogits u0 us k (s + 1)).ancestors i))
        ((pfRun rng m I zeroLogits u0 us k (s + 1)).particles i) us[s])) - Real.log N))
  | 0, _ => by rw [pfRun_zero]; simp [pfInit, Fl.zero_def]
  | t + 1, ht => by
    have ih := resampled_logZ rng hg I u0 us k t (by omega)
    rw [Fin.sum_univ_castSucc]
    obtain ⟨A, hA⟩ : ∃ A, A = pfRun rng m I zeroLogits u0 us k := ⟨_, rfl⟩
    have hw : ∀ i, (A (t + 1)).logWeights i =
        Fl.fin (γ ((A t).particles ((A (t + 1)).ancestors i)) ((A (t + 1)).particles i) us[t]) := by
      intro i
      rw [← hg, hA, pfRun_succ u0 us k t ht]
      exact add_zero _
    have h1 : (A (t + 1)).logZ = Fl.logsumexp (A (t + 1)).logWeights - Fl.logsumexp (fun _ : Fin N => (0 : Fl)) +
        (A t).logZ := by
      rw [hA, pfRun_succ u0 us k t ht]
      rfl
    rw [← hA] at ih ⊢
    rw [h1, ih, logsumexp_zero, logsumexp_eq (isLogits_of_fin fun i => by rw [hw]; trivial), Fl.fin_sub, Fl.fin_add]
    simp only [hw, Fl.lik]
    exact congrArg Fl.fin (add_comm _ _)

/-- Near `θ₀` the particles and ancestors of a run do not depend on the parameter, for keys at which the indices are locally
constant. -/
theorem run_locally_constant [NeZero N] (rng : Prng K) (hm : PotentialFamily mdl g g' θ₀)
    {I : K → (Fin N → Fl) → Fin N → Fin N} {G : Set (K × (Fin N → Fl))}
    (hG : ∀ k l, (k, l) ∈ G → IsLogits l → ∃ ε > 0, ∀ l', IsLogits l' → (∀ i, |nw l' i - nw l i| < ε) → I k l' = I k l)
    (u0 : Inp) (us : List Inp) (k : K)
    (hk : ∀ t, 1 ≤ t → (ht : t < us.length) → (rng.nth (rng.nth k (us.length + 1) ⟨t, by omega⟩) (N + 1) 0,
      (pfRun rng (mdl θ₀) I zeroLogits u0 us k t).logWeights) ∈ G) :
    ∀ t ≤ us.length, ∀ᶠ θ in 𝓝 θ₀, ∀ s ≤ t,
      (pfRun rng (mdl θ) I zeroLogits u0 us k s).particles = (pfRun rng (mdl θ₀) I zeroLogits u0 us k s).particles ∧
      (pfRun rng (mdl θ) I zeroLogits u0 us k s).ancestors = (pfRun rng (mdl θ₀) I zeroLogits u0 us k s).ancestors := by
  obtain ⟨S, hS⟩ : ∃ S : ℝ → ℕ → PFState K X Inp N, S = fun θ t => pfRun rng (mdl θ) I zeroLogits u0 us k t := ⟨_, rfl⟩
  have hS' : ∀ θ t, pfRun rng (mdl θ) I zeroLogits u0 us k t = S θ t := fun θ t => by rw [hS]
  simp only [hS'] at hk ⊢
  have hstep : ∀ θ t (ht : t < us.length), S θ (t + 1) = stepTo rng (mdl θ) I zeroLogits (S θ t) us[t]
      (rng.nth k (us.length + 1) ⟨t + 1, by omega⟩) := fun θ t ht => by rw [hS]; exact pfRun_succ u0 us k t ht
  have hkey : ∀ θ t (ht : t ≤ us.length), (S θ t).key = rng.nth k (us.length + 1) ⟨t, by omega⟩ := fun θ t ht => by
    rw [hS]; exact pfRun_key u0 us k t ht
  -- the weights of one step vary continuously
  have hnext : ∀ t (ht : t ≤ us.length), (∀ᶠ θ in 𝓝 θ₀, I (rng.nth (rng.nth k (us.length + 1) ⟨t, by omega⟩) (N + 1) 0)
      (S θ t).logWeights = I (rng.nth (rng.nth k (us.length + 1) ⟨t, by omega⟩) (N + 1) 0) (S θ₀ t).logWeights) →
      (∀ᶠ θ in 𝓝 θ₀, (S θ t).particles = (S θ₀ t).particles) → (h : t < us.length) →
      ∀ᶠ θ in 𝓝 θ₀, (S θ (t + 1)).particles = (S θ₀ (t + 1)).particles ∧ (S θ (t + 1)).ancestors = (S θ₀ (t + 1)).ancestors := by
    intro t ht h1 h2 h
    filter_upwards [h1, h2] with θ h1 h2
    rw [hstep θ t h, hstep θ₀ t h]
    simp only [stepTo, coreStep, PFState.core, hkey θ t ht, hkey θ₀ t ht, h1, h2, hm.propagate θ, and_self]
  intro t
  induction t with
  | zero =>
    intro _
    refine Eventually.of_forall fun θ s hs => ?_
    rw [hS, Nat.le_zero.1 hs]
    simp only [pfRun_zero]
    exact ⟨funext fun i => hm.init _ _ _, rfl⟩
  | succ t ih =>
    intro ht
    have ih' := ih (by omega)
    suffices hs : ∀ᶠ θ in 𝓝 θ₀, (S θ (t + 1)).particles = (S θ₀ (t + 1)).particles ∧
        (S θ (t + 1)).ancestors = (S θ₀ (t + 1)).ancestors by
      filter_upwards [ih', hs] with θ h1 h2 s hs
      rcases Nat.lt_or_ge t s with h3 | h3
      · rw [show s = t + 1 by omega]; exact h2
      · exact h1 s h3
    refine hnext t (by omega) ?_ (ih'.mono fun θ h => (h t le_rfl).1) ht
    rcases Nat.eq_zero_or_pos t with h0 | h0
    · subst h0
      refine Eventually.of_forall fun θ => ?_
      rw [hS]
      simp only [pfRun_zero, pfInit]
    · -- weights at time `t`
      obtain ⟨r, rfl⟩ : ∃ r, t = r + 1 := ⟨t - 1, by omega⟩
      have hw : ∀ θ i, (S θ (r + 1)).logWeights i =
          Fl.fin (g θ ((S θ r).particles ((S θ (r + 1)).ancestors i)) ((S θ (r + 1)).particles i) us[r]) := by
        intro θ i
        rw [← hm.logPotential, hstep θ r (by omega)]
        exact add_zero _
      have hl : ∀ θ, IsLogits (S θ (r + 1)).logWeights := fun θ => isLogits_of_fin fun i => by rw [hw]; trivial
      obtain ⟨ε, hε, hI⟩ := hG _ _ (hk (r + 1) h0 ht) (hl θ₀)
      have hc : ∀ᶠ θ in 𝓝 θ₀, ∀ i, |nw (fun i => Fl.fin (g θ ((S θ₀ r).particles ((S θ₀ (r + 1)).ancestors i))
          ((S θ₀ (r + 1)).particles i) us[r])) i - nw (S θ₀ (r + 1)).logWeights i| < ε := by
        rw [eventually_all]
        intro i
        have h3 : (S θ₀ (r + 1)).logWeights = fun i => Fl.fin (g θ₀ ((S θ₀ r).particles ((S θ₀ (r + 1)).ancestors i))
          ((S θ₀ (r + 1)).particles i) us[r]) := funext (hw θ₀)
        have h4 : ∀ j, ContinuousAt (fun θ => Real.exp (g θ ((S θ₀ r).particles ((S θ₀ (r + 1)).ancestors j))
          ((S θ₀ (r + 1)).particles j) us[r])) θ₀ := fun j => (hm.deriv _ _ _).continuousAt.rexp
        have h5 : ContinuousAt (fun θ => nw (fun i => Fl.fin (g θ ((S θ₀ r).particles ((S θ₀ (r + 1)).ancestors i))
            ((S θ₀ (r + 1)).particles i) us[r])) i) θ₀ := by
          simp only [nw, Fl.lik]
          exact (h4 i).div (tendsto_finsetSum _ fun j _ => h4 j)
            (Finset.sum_pos (fun j _ => Real.exp_pos _) Finset.univ_nonempty).ne'
        have h6 := Metric.continuousAt_iff'.1 h5 ε hε
        rw [h3]
        exact h6
      filter_upwards [ih', hc] with θ h1 h3
      refine hI _ (hl θ) ?_
      have h4 : (S θ (r + 1)).logWeights = fun i => Fl.fin (g θ ((S θ₀ r).particles ((S θ₀ (r + 1)).ancestors i))
          ((S θ₀ (r + 1)).particles i) us[r]) := by
        funext i
        rw [hw, (h1 _ le_rfl).1, (h1 _ le_rfl).2, (h1 r (by omega)).1]
      rw [h4]
      exact h3

theorem coreAt_congr {rng : Prng K} {m : FKModel K X Inp} {I : K → (Fin N → Fl) → Fin N → Fin N}
    {L : K → (Fin N → Fl) → Fin N → Fl} : ∀ (us : List Inp) (t : ℕ) (k : K) (c : Core X N) (keys keys' : Fin us.length → K),
    (∀ i : Fin us.length, (i : ℕ) + 1 < t → keys i = keys' i) →
      coreAt rng m I L us t k c keys = coreAt rng m I L us t k c keys'
  | [], _, _, _, _, _, _ => rfl
  | _ :: _, 0, _, _, _, _, _ => rfl
  | _ :: [], 1, _, _, _, _, _ => rfl
  | _ :: _ :: _, 1, _, _, _, _, _ => rfl
  | u :: us, t + 2, k, c, keys, keys', h => by
    rw [coreAt, coreAt, h 0 (by simp)]
    exact coreAt_congr us (t + 1) _ _ _ _ fun i hi => h i.succ (by simp; omega)

section law

variable [MeasurableSpace K] [MeasurableSpace X] {P : Measure K} {rng : Rng K}

/-- Almost surely the key that resamples at time `t` is generic for the weights at time `t`. -/
theorem generic_ae (h : IdealRng rng P) {m : FKModel K X Inp} {I : K → (Fin N → Fl) → Fin N → Fin N}
    {L : K → (Fin N → Fl) → Fin N → Fl} (hU : UnbiasedWeights P I L) {G : Set (K × (Fin N → Fl))} (hG : MeasurableSet G)
    (hG0 : ∀ l, ∀ᵐ k ∂P, (k, l) ∈ G) {u0 : Inp} (h0 : Measurable fun k => m.initSample k u0) (us : List Inp)
    (hu : ∀ u ∈ us, m.Regular u) (t : ℕ) (ht1 : 1 ≤ t) (ht : t < us.length) :
    ∀ᵐ k ∂P, (rng.nth (rng.nth k (us.length + 1) ⟨t, by omega⟩) (N + 1) 0,
      (pfRun rng.toPrng m I L u0 us k t).logWeights) ∈ G := by
  have := h.prob
  obtain ⟨W, hW⟩ : ∃ W : (Fin (us.length + 1) → K) → Core X N, W = fun keys =>
    coreAt rng.toPrng m I L us t (keys 0) (coreInit m u0 (rng.nth (keys 0) N)) (Fin.tail keys) := ⟨_, rfl⟩
  have hWm : Measurable W := by rw [hW]; exact measurable_runCore h hU h0 us t hu
  have hrun : ∀ k, (pfRun rng.toPrng m I L u0 us k t).logWeights = (W (rng.nth k (us.length + 1))).2.1 := by
    intro k
    have h4 := core_pfAt (rng := rng.toPrng) (mdl := m) (I := I) (L := L) us t
      (pfInit rng.toPrng m N u0 (rng.nth k (us.length + 1) 0)) (Fin.tail (rng.nth k (us.length + 1)))
    rw [hW]
    exact congrArg (fun c : Core X N => c.2.1) h4
  simp only [hrun]
  refine (h.split (us.length + 1)).quasiMeasurePreserving.ae
    (p := fun keys => (rng.nth (keys ⟨t, by omega⟩) (N + 1) 0, (W keys).2.1) ∈ G) ?_
  obtain ⟨τ, hτ⟩ : ∃ τ : Fin (us.length + 1), τ = ⟨t, by omega⟩ := ⟨_, rfl⟩
  rw [← hτ]
  have hWc : ∀ a a' b, W (τ.insertNth a b) = W (τ.insertNth a' b) := by
    intro a a' b
    have h1 : ∀ i : Fin (us.length + 1), (i : ℕ) < t → (τ.insertNth a b : Fin (us.length + 1) → K) i =
        (τ.insertNth a' b : Fin (us.length + 1) → K) i := by
      intro i hi
      have hne : i ≠ τ := by rintro rfl; rw [hτ] at hi; simp at hi
      obtain ⟨j, rfl⟩ := Fin.exists_succAbove_eq hne
      rw [Fin.insertNth_apply_succAbove, Fin.insertNth_apply_succAbove]
    rw [hW]
    dsimp only
    rw [h1 0 (by simp; omega)]
    exact coreAt_congr us t _ _ _ _ fun i hi => h1 i.succ (by simpa using hi)
  obtain ⟨k₀⟩ : Nonempty K := nonempty_of_isProbabilityMeasure P
  have hmp := measurePreserving_piFinSuccAbove (fun _ : Fin (us.length + 1) => P) τ
  have hset : MeasurableSet {q : K × (Fin us.length → K) | (rng.nth q.1 (N + 1) 0, (W (τ.insertNth k₀ q.2)).2.1) ∈ G} := by
    have h1 : Measurable fun b : Fin us.length → K => (τ.insertNth k₀ b : Fin (us.length + 1) → K) := by
      refine measurable_pi_iff.mpr fun i => ?_
      by_cases hi : i = τ
      · subst hi; simp only [Fin.insertNth_apply_same]; exact measurable_const
      · obtain ⟨j, rfl⟩ := Fin.exists_succAbove_eq hi
        simp only [Fin.insertNth_apply_succAbove]
        exact measurable_pi_apply j
    exact (((h.measurePreserving_nth (N + 1) 0).measurable.comp measurable_fst).prodMk
      (measurable_fst.comp (measurable_snd.comp (hWm.comp (h1.comp measurable_snd))))) hG
  have hnull : ∀ᵐ q ∂(P.prod (Measure.pi fun _ : Fin us.length => P)),
      (rng.nth q.1 (N + 1) 0, (W (τ.insertNth k₀ q.2)).2.1) ∈ G := by
    rw [ae_iff]
    have h2 : {q : K × (Fin us.length → K) | ¬ (rng.nth q.1 (N + 1) 0, (W (τ.insertNth k₀ q.2)).2.1) ∈ G} =
        {q : K × (Fin us.length → K) | (rng.nth q.1 (N + 1) 0, (W (τ.insertNth k₀ q.2)).2.1) ∈ G}ᶜ := rfl
    rw [h2, Measure.prod_apply_symm hset.compl, lintegral_eq_zero_iff (measurable_measure_prodMk_right hset.compl)]
    refine Eventually.of_forall fun b => ?_
    exact (h.measurePreserving_nth (N + 1) 0).quasiMeasurePreserving.ae (hG0 (W (τ.insertNth k₀ b)).2.1)
  filter_upwards [hmp.quasiMeasurePreserving.ae hnull] with keys hk
  have h3 : τ.insertNth (keys τ) (τ.removeNth keys) = keys := Fin.insertNth_self_removeNth τ keys
  have h4 : W keys = W (τ.insertNth k₀ (τ.removeNth keys)) := by
    conv_lhs => rw [← h3]
    exact hWc _ _ _
  rw [h4]
  exact hk

/-- C121, with resampling at every step: for almost every key the log normalising constant is differentiable, and its
derivative is the sum over the steps of the weighted averages of the scores of that step, with the weights of that step:
each score is averaged over the filtering law. (The derivative of the log evidence averages all scores over the smoothing
law.) -/
theorem gradient_with_resampling [NeZero N] (h : IdealRng rng P) (hm : PotentialFamily mdl g g' θ₀) (dummy : X)
    {R : Resampler K N X} {I : K → (Fin N → Fl) → Fin N → Fin N} (hR : Uses R I zeroLogits)
    (hU : UnbiasedWeights P I zeroLogits) (hF : Flat P I) {u0 : Inp}
    (h0 : Measurable fun k => (mdl θ₀).initSample k u0) (us : List Inp) (hu : ∀ u ∈ us, (mdl θ₀).Regular u) :
    ∃ (S : K → ℝ → ℕ → PFState K X Inp N) (z : K → ℝ → ℕ → ℝ),
      (∀ k θ, filter rng.toPrng (particleFilter rng.toPrng (mdl θ) dummy N R) (u0 :: us) false (some k) =
        ⟨false, .ok ((List.range (us.length + 1)).map fun t => .ok (S k θ t))⟩) ∧
      (∀ k θ, ∀ t ≤ us.length, (S k θ t).logZ = Fl.fin (z k θ t)) ∧
      ∀ᵐ k ∂P, ∀ t (ht : t ≤ us.length), HasDerivAt (fun θ => z k θ t) (∑ s : Fin t,
        ∑ i, nw (S k θ₀ (s + 1)).logWeights i *
          g' ((S k θ₀ s).particles ((S k θ₀ (s + 1)).ancestors i)) ((S k θ₀ (s + 1)).particles i) us[s]) θ₀ := by
  obtain ⟨G, hG, hG0, hG1⟩ := hF
  obtain ⟨S, hS⟩ : ∃ S : K → ℝ → ℕ → PFState K X Inp N, S = fun k θ t =>
    pfRun rng.toPrng (mdl θ) I zeroLogits u0 us k t := ⟨_, rfl⟩
  refine ⟨S, fun k θ t => if ht : t ≤ us.length then ∑ s : Fin t, (Real.log (∑ i, Real.exp
      (g θ ((S k θ s).particles ((S k θ (s + 1)).ancestors i)) ((S k θ (s + 1)).particles i) us[s])) - Real.log N) else 0,
    fun k θ => by rw [hS]; exact filter_pf_eq hR dummy u0 us k, fun k θ t ht => ?_, ?_⟩
  · dsimp only
    rw [dif_pos ht, hS]
    exact resampled_logZ rng.toPrng (hm.logPotential θ) I u0 us k t ht
  · have hae : ∀ᵐ k ∂P, ∀ t, 1 ≤ t → (ht : t < us.length) → (rng.nth (rng.nth k (us.length + 1) ⟨t, by omega⟩) (N + 1) 0,
        (pfRun rng.toPrng (mdl θ₀) I zeroLogits u0 us k t).logWeights) ∈ G := by
      rw [ae_all_iff]
      intro t
      by_cases h1 : 1 ≤ t ∧ t < us.length
      · filter_upwards [generic_ae h hU hG hG0 h0 us hu t h1.1 h1.2] with k hk _ _
        exact hk
      · exact Eventually.of_forall fun k h2 h3 => absurd ⟨h2, h3⟩ h1
    filter_upwards [hae] with k hk t ht
    have hloc := run_locally_constant rng.toPrng hm hG1 u0 us k hk t ht
    have hloc' : ∀ᶠ θ in 𝓝 θ₀, ∀ s ≤ t, (S k θ s).particles = (S k θ₀ s).particles ∧
        (S k θ s).ancestors = (S k θ₀ s).ancestors := by rw [hS]; exact hloc
    have hd : HasDerivAt (fun θ => ∑ s : Fin t, (Real.log (∑ i, Real.exp
        (g θ ((S k θ₀ s).particles ((S k θ₀ (s + 1)).ancestors i)) ((S k θ₀ (s + 1)).particles i) us[s])) - Real.log N))
        (∑ s : Fin t, ∑ i, nw (S k θ₀ (s + 1)).logWeights i *
          g' ((S k θ₀ s).particles ((S k θ₀ (s + 1)).ancestors i)) ((S k θ₀ (s + 1)).particles i) us[s]) θ₀ := by
      refine HasDerivAt.fun_sum fun s _ => ?_
      have h1 := (hasDerivAt_logsumexp (f := fun θ i => g θ ((S k θ₀ s).particles ((S k θ₀ (s + 1)).ancestors i))
        ((S k θ₀ (s + 1)).particles i) us[s]) fun i => hm.deriv _ _ _).sub_const (Real.log N)
      have h2 : (S k θ₀ (s + 1)).logWeights = fun i => Fl.fin (g θ₀ ((S k θ₀ s).particles ((S k θ₀ (s + 1)).ancestors i))
          ((S k θ₀ (s + 1)).particles i) us[s]) := by
        funext i
        rw [← hm.logPotential, hS]
        simp only [pfRun_succ u0 us k s (by omega)]
        exact add_zero _
      rw [h2]
      exact h1
    refine hd.congr_of_eventuallyEq ?_
    filter_upwards [hloc'] with θ hθ
    rw [dif_pos ht]
    refine Finset.sum_congr rfl fun s _ => ?_
    rw [(hθ s (by omega)).1, (hθ (s + 1) (by omega)).1, (hθ (s + 1) (by omega)).2]

/-- `gradient_with_resampling` for multinomial and systematic resampling. -/
theorem gradient_with_library_resampling [NeZero N] (h : IdealRng rng P) (hm : PotentialFamily mdl g g' θ₀) (dummy : X)
    (pf : Platform) {R : Resampler K N X} (hR : R = multinomial rng pf ∨ R = systematic rng pf) {u0 : Inp}
    (h0 : Measurable fun k => (mdl θ₀).initSample k u0) (us : List Inp) (hu : ∀ u ∈ us, (mdl θ₀).Regular u) :
    ∃ (S : K → ℝ → ℕ → PFState K X Inp N) (z : K → ℝ → ℕ → ℝ),
      (∀ k θ, filter rng.toPrng (particleFilter rng.toPrng (mdl θ) dummy N R) (u0 :: us) false (some k) =
        ⟨false, .ok ((List.range (us.length + 1)).map fun t => .ok (S k θ t))⟩) ∧
      (∀ k θ, ∀ t ≤ us.length, (S k θ t).logZ = Fl.fin (z k θ t)) ∧
      ∀ᵐ k ∂P, ∀ t (ht : t ≤ us.length), HasDerivAt (fun θ => z k θ t) (∑ s : Fin t,
        ∑ i, nw (S k θ₀ (s + 1)).logWeights i *
          g' ((S k θ₀ s).particles ((S k θ₀ (s + 1)).ancestors i)) ((S k θ₀ (s + 1)).particles i) us[s]) θ₀ := by
  rcases hR with rfl | rfl
  · exact gradient_with_resampling h hm dummy (uses_multinomial rng pf) (unbiasedWeights_multinomial h pf)
      (flat_multinomial h pf) h0 us hu
  · exact gradient_with_resampling h hm dummy (uses_systematic rng pf) (unbiasedWeights_systematic h pf)
      (flat_systematic h pf) h0 us hu

end law

end

/-! ### The derivative is not the score -/

section example_

variable [MeasurableSpace K] {P : Measure K} {rng : Rng K}

/-- A fair coin that does not move. The first observation weights heads by `exp θ`, the second by `3`. -/
def fixedCoin (rng : Rng K) (θ : ℝ) : FKModel K Bool Bool where
  initSample k _ := coin rng k
  propagate _ x _ := x
  logPotential _ x' u := Fl.fin (if x' then (if u then Real.log 3 else θ) else 0)

omit [MeasurableSpace K] in
theorem fixedCoin_family (rng : Rng K) : PotentialFamily (fixedCoin rng)
    (fun θ _ x' u => if x' then (if u then Real.log 3 else θ) else 0)
    (fun _ x' u => if x' then (if u then 0 else 1) else 0) 0 where
  init _ _ _ := rfl
  propagate _ _ _ _ := rfl
  logPotential _ _ _ _ := rfl
  deriv x x' u := by
    cases x' <;> cases u <;> simp only [if_true, if_false, Bool.false_eq_true]
    · exact hasDerivAt_const _ _
    · exact hasDerivAt_const _ _
    · exact hasDerivAt_id _
    · exact hasDerivAt_const _ _

theorem fixedCoin_regular (rng : Rng K) (θ : ℝ) (u : Bool) : (fixedCoin rng θ).Regular u where
  propagate := measurable_snd
  logPotential := measurable_of_finite _
  isLog _ _ := trivial

theorem lintegral_coin (h : IdealRng rng P) (F : Bool → ℝ≥0∞) : ∫⁻ k, F (coin rng k) ∂P = 2⁻¹ * (F true + F false) := by
  have h1 : ∀ k, F (coin rng k) = F true * (if true = coin rng k then 1 else 0) +
      F false * (if false = coin rng k then 1 else 0) := fun k => by cases coin rng k <;> simp
  have hc : ∀ x : Bool, Measurable fun k => (if x = coin rng k then 1 else 0 : ℝ≥0∞) := fun x =>
    (measurable_of_finite fun y : Bool => (if x = y then 1 else 0 : ℝ≥0∞)).comp (measurable_coin h)
  rw [lintegral_congr h1, lintegral_add_left ((hc true).const_mul _), lintegral_const_mul _ (hc true),
    lintegral_const_mul _ (hc false), coin_law h, coin_law h]
  ring

theorem fixedCoin_step (h : IdealRng rng P) (θ : ℝ) (u : Bool) (f : Bool → ℝ≥0∞) (x : Bool) :
    ∫⁻ x', ((fixedCoin rng θ).step P u).pot x x' * f x' ∂((fixedCoin rng θ).step P u).kernel x =
      ENNReal.ofReal (Real.exp (if x then (if u then Real.log 3 else θ) else 0)) * f x := by
  have := h.prob
  change ∫⁻ x', _ ∂(P.map fun _ => x) = _
  rw [Measure.map_const, measure_univ, one_smul, lintegral_dirac]
  rfl

theorem lintegral_fixedCoin_init (h : IdealRng rng P) (θ : ℝ) (u : Bool) (F : Bool → ℝ≥0∞) :
    ∫⁻ x, F x ∂(fixedCoin rng θ).init P u = 2⁻¹ * (F true + F false) := by
  rw [← lintegral_coin h F]
  exact lintegral_map (measurable_of_finite F) (measurable_coin h)

theorem fixedCoin_evidence (h : IdealRng rng P) (θ : ℝ) :
    fkExp ((fixedCoin rng θ).init P true) ([false, true].map ((fixedCoin rng θ).step P)) (fun _ => 1) =
      ENNReal.ofReal ((1 + 3 * Real.exp θ) / 2) := by
  rw [fkExp]
  simp only [List.map_cons, List.map_nil, fkPathExp, fixedCoin_step h]
  rw [lintegral_fixedCoin_init h]
  simp only [if_true, if_false, Bool.false_eq_true, Real.exp_zero, mul_one, ENNReal.ofReal_one]
  rw [Real.exp_log (by norm_num), ← ENNReal.ofReal_mul (Real.exp_nonneg _), ← ENNReal.ofReal_one,
    ← ENNReal.ofReal_add (by positivity) (by norm_num), ← ENNReal.div_eq_inv_mul, ENNReal.ofReal_div_of_pos (by norm_num)]
  congr 1
  · congr 1; ring
  · norm_num

/-- C121 is false of the code: for a fixed coin and any number of particles, the derivative of the log evidence is `3/4`, but
the derivative of the log normalising constant has the expectation `1/2`, with multinomial and systematic resampling. -/
theorem gradient_not_score [NeZero N] (h : IdealRng rng P) (pf : Platform) {R : Resampler K N Bool}
    (hR : R = multinomial rng pf ∧ IndepSplit rng.toPrng P ∨
      R = systematic rng pf ∧ (IndepSplit rng.toPrng P ∨ PrefixSplit rng.toPrng)) (dummy : Bool) :
    (∀ θ, fkExp ((fixedCoin rng θ).init P true) ([false, true].map ((fixedCoin rng θ).step P)) (fun _ => 1) =
      ENNReal.ofReal ((1 + 3 * Real.exp θ) / 2)) ∧
    HasDerivAt (fun θ => Real.log ((1 + 3 * Real.exp θ) / 2)) (3 / 4) 0 ∧
    ∃ (S : K → ℝ → ℕ → PFState K Bool Bool N) (z : K → ℝ → ℝ) (D : K → ℝ),
      (∀ k θ, filter rng.toPrng (particleFilter rng.toPrng (fixedCoin rng θ) dummy N R) [true, false, true] false (some k) =
        ⟨false, .ok [.ok (S k θ 0), .ok (S k θ 1), .ok (S k θ 2)]⟩) ∧
      (∀ k θ, (S k θ 2).logZ = Fl.fin (z k θ)) ∧
      (∀ᵐ k ∂P, HasDerivAt (z k) (D k) 0) ∧ (∀ k, 0 ≤ D k) ∧ ∫⁻ k, ENNReal.ofReal (D k) ∂P = 1 / 2 := by
  obtain ⟨I, hI, hU, hF, hP⟩ : ∃ I : K → (Fin N → Fl) → Fin N → Fin N, Uses R I zeroLogits ∧
      UnbiasedWeights P I zeroLogits ∧ Flat P I ∧
      (IndepSplit rng.toPrng P ∨ PrefixSplit rng.toPrng ∧ KeepsEqual P I zeroLogits) := by
    rcases hR with ⟨rfl, hi⟩ | ⟨rfl, hi⟩
    · exact ⟨_, uses_multinomial rng pf, unbiasedWeights_multinomial h pf, flat_multinomial h pf, .inl hi⟩
    · exact ⟨_, uses_systematic rng pf, unbiasedWeights_systematic h pf, flat_systematic h pf,
        hi.imp_right fun h1 => ⟨h1, keepsEqual_systematic h pf⟩⟩
  refine ⟨fixedCoin_evidence h, ?_, ?_⟩
  · have h1 : HasDerivAt (fun θ => (1 + 3 * Real.exp θ) / 2) (3 * Real.exp 0 / 2) 0 :=
      (((Real.hasDerivAt_exp 0).const_mul 3).const_add 1).div_const 2
    have h2 := h1.log (by positivity)
    convert h2 using 1
    rw [Real.exp_zero]; norm_num
  · obtain ⟨S, z, h1, h2, h3⟩ := gradient_with_resampling h (fixedCoin_family rng) dummy hI hU hF (u0 := true)
      (measurable_coin h) [false, true] (fun u _ => fixedCoin_regular rng 0 u)
    obtain ⟨D, hD⟩ : ∃ D : K → ℝ, D = fun k => ∑ i, nw (S k 0 1).logWeights i * if (S k 0 1).particles i then 1 else 0 :=
      ⟨_, rfl⟩
    refine ⟨S, fun k θ => z k θ 2, D, fun k θ => h1 k θ, fun k θ => h2 k θ 2 le_rfl, ?_, ?_, ?_⟩
    · filter_upwards [h3] with k hk
      have h4 := hk 2 le_rfl
      convert h4 using 1
      rw [hD, Fin.sum_univ_two]
      simp
    · intro k
      rw [hD]
      exact Finset.sum_nonneg fun i _ => mul_nonneg (nw_nonneg _ _) (by split_ifs <;> norm_num)
    · have hS : ∀ k, ∀ t ≤ 2, S k 0 t = pfRun rng.toPrng (fixedCoin rng 0) I zeroLogits true [false, true] k t := by
        intro k t ht
        have h4 := (h1 k 0).symm.trans (filter_pf_eq hI dummy true [false, true] k)
        have h5 := congrArg (fun o => match o.result with | .ok l => l[t]? | .error _ => none) h4
        simpa only [List.getElem?_map, List.getElem?_range (show t < [false, true].length + 1 by simp; omega), Option.map_some,
          Option.some.injEq, Except.ok.injEq] using h5
      have h5 := lintegral_pathEst (mdl := fixedCoin rng 0) h hU hP (u0 := true) (measurable_coin h) [false, true]
        (fun u _ => fixedCoin_regular rng 0 u) (.inl revivesDead_zero) 1 (by simp)
        (f := fun p => bif p 1 then 1 else 0)
        ((measurable_of_finite fun b : Bool => (bif b then 1 else 0 : ℝ≥0∞)).comp (measurable_pi_apply 1))
      have h6 : ∀ k, ENNReal.ofReal (D k) = pathEst (pfRun rng.toPrng (fixedCoin rng 0) I zeroLogits true [false, true] k) 1
          fun p => bif p 1 then 1 else 0 := by
        intro k
        have h7 := resampled_logZ rng.toPrng (fixedCoin_family rng |>.logPotential 0) I true [false, true] k 1 (by simp)
        simp only [pathEst, ancestralPath_self]
        rw [h7, hD]
        simp only [hS k 1 (by norm_num)]
        rw [ENNReal.ofReal_sum_of_nonneg fun i _ => mul_nonneg (nw_nonneg _ _) (by split_ifs <;> norm_num)]
        have h8 : (Fl.fin (∑ s : Fin 1, (Real.log (∑ i : Fin N, Real.exp
            (if (pfRun rng.toPrng (fixedCoin rng 0) I zeroLogits true [false, true] k (s + 1)).particles i then
              (if [false, true][s] then Real.log 3 else 0) else 0)) - Real.log N))).lik = 1 := by
          simp [Fl.lik]
        rw [h8, ENNReal.ofReal_one, one_mul]
        refine Finset.sum_congr rfl fun i _ => ?_
        rw [ENNReal.ofReal_mul (nw_nonneg _ _)]
        congr 1
        cases (pfRun rng.toPrng (fixedCoin rng 0) I zeroLogits true [false, true] k 1).particles i <;> simp
      rw [lintegral_congr h6, h5, fkExp]
      simp only [List.take_succ_cons, List.take_zero, List.map_cons, List.map_nil, fkPathExp, pathCons, fixedCoin_step h]
      rw [lintegral_fixedCoin_init h]
      simp

/-- Such generators exist. -/
example : (∃ rng : Rng Key, IdealRng rng keyLaw ∧ PrefixSplit rng.toPrng) ∧
    ∃ rng : Rng Key, IdealRng rng keyLaw ∧ IndepSplit rng.toPrng keyLaw :=
  ⟨exists_ideal_prefix, exists_ideal_indep⟩

end example_

end

end Cuthbert.SMC
