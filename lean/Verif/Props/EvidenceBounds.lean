import Verif.Props.NanWeights
import Verif.Props.MarginalFilter
import Verif.Props.ParticleFilterRuns

/-!
# C114: the log evidence stays within the range of the log potentials

Particle filters, for every key.
-/

namespace Cuthbert.SMC
open Resampling Spec

noncomputable section

variable {K X Inp : Type} {N : ℕ}

/-- `l` is a number between `a` and `b`. -/
def Between (a b : ℝ) (l : Fl) : Prop := ∃ r, l = Fl.fin r ∧ a ≤ r ∧ r ≤ b

theorem Between.isFin {a b : ℝ} {l : Fl} (h : Between a b l) : l.IsFin := by
  obtain ⟨r, rfl, -⟩ := h
  trivial

theorem isLogits_of_fin [NeZero N] {l : Fin N → Fl} (h : ∀ i, (l i).IsFin) : IsLogits l :=
  ⟨fun i => (h i).isLog, 0, h 0⟩

theorem lik_pos_of_fin {l : Fl} (h : l.IsFin) : 0 < l.lik := by
  cases l <;> first | exact h.elim | exact Real.exp_pos _

theorem Between.lik {a b : ℝ} {l : Fl} (h : Between a b l) : Real.exp a ≤ l.lik ∧ l.lik ≤ Real.exp b := by
  obtain ⟨r, rfl, h1, h2⟩ := h
  exact ⟨Real.exp_le_exp.2 h1, Real.exp_le_exp.2 h2⟩

/-- Adding numbers between `a` and `b` to the summands raises `logsumexp` by a number between `a` and `b`. -/
theorem logsumexp_between [NeZero N] {a b : ℝ} {p l : Fin N → Fl} (hp : ∀ i, Between a b (p i)) (hl : ∀ i, (l i).IsFin) :
    Between a b (Fl.logsumexp (fun i => p i + l i) - Fl.logsumexp l) := by
  have h1 : ∀ i, (p i + l i).IsFin := fun i => (hp i).isFin.add (hl i)
  rw [logsumexp_eq (isLogits_of_fin h1), logsumexp_eq (isLogits_of_fin hl), Fl.fin_sub]
  have hs : 0 < ∑ i, (l i).lik := Finset.sum_pos (fun i _ => lik_pos_of_fin (hl i)) Finset.univ_nonempty
  have hs' : 0 < ∑ i, (p i + l i).lik := Finset.sum_pos (fun i _ => lik_pos_of_fin (h1 i)) Finset.univ_nonempty
  have hm : ∀ i, (p i + l i).lik = (p i).lik * (l i).lik := fun i => Fl.lik_add (hp i).isFin.isLog (hl i).isLog
  refine ⟨_, rfl, ?_, ?_⟩
  · rw [le_sub_iff_add_le, Real.le_log_iff_exp_le hs', Real.exp_add, Real.exp_log hs, Finset.mul_sum]
    exact Finset.sum_le_sum fun i _ => by
      rw [hm]; exact mul_le_mul_of_nonneg_right (hp i).lik.1 (Fl.lik_nonneg _)
  · rw [sub_le_iff_le_add, Real.log_le_iff_le_exp hs', Real.exp_add, Real.exp_log hs, Finset.mul_sum]
    exact Finset.sum_le_sum fun i _ => by
      rw [hm]; exact mul_le_mul_of_nonneg_right (hp i).lik.2 (Fl.lik_nonneg _)

theorem Between.add {a b a' b' : ℝ} {l l' : Fl} (h : Between a b l) (h' : Between a' b' l') : Between (a + a') (b + b') (l + l') := by
  obtain ⟨r, rfl, h1, h2⟩ := h
  obtain ⟨r', rfl, h3, h4⟩ := h'
  exact ⟨_, rfl, add_le_add h1 h3, add_le_add h2 h4⟩

theorem sum_take_succ (f : Inp → ℝ) (us : List Inp) (t : ℕ) (ht : t < us.length) :
    ((us.take (t + 1)).map f).sum = f us[t] + ((us.take t).map f).sum := by
  rw [List.take_succ_eq_append_getElem ht, List.map_append, List.sum_append]
  simp [add_comm]

theorem pfRun_between [NeZero N] {rng : Prng K} {mdl : FKModel K X Inp} {I : K → (Fin N → Fl) → Fin N → Fin N}
    {L : K → (Fin N → Fl) → Fin N → Fl} (hL : ∀ k l, (∀ i, (l i).IsFin) → ∀ i, (L k l i).IsFin) (u0 : Inp) (us : List Inp)
    (k : K) (a b : Inp → ℝ) (hab : ∀ u ∈ us, ∀ x x', Between (a u) (b u) (mdl.logPotential x x' u)) : ∀ t ≤ us.length,
    (∀ i, ((pfRun rng mdl I L u0 us k t).logWeights i).IsFin) ∧
    Between ((us.take t).map a).sum ((us.take t).map b).sum (pfRun rng mdl I L u0 us k t).logZ
  | 0, _ => by
    rw [pfRun_zero]
    exact ⟨fun _ => trivial, 0, rfl, by simp, by simp⟩
  | t + 1, ht => by
    obtain ⟨h1, h2⟩ := pfRun_between hL u0 us k a b hab t (by omega)
    rw [pfRun_succ u0 us k t (by omega), sum_take_succ a us t (by omega), sum_take_succ b us t (by omega)]
    generalize pfRun rng mdl I L u0 us k t = s at *
    have hu := hab us[t] (List.getElem_mem _)
    exact ⟨fun i => (hu _ _).isFin.add (hL _ _ h1 i), (logsumexp_between (fun i => hu _ _) (hL _ _ h1)).add h2⟩

/-- **C114** (particle filter). If the log potential of every step lies between two numbers, which may depend on the
model inputs of the step, then for every key the log normalising constant lies between their sums, whatever the number of
particles and the resampling function. In particular it is exact if the potentials do not depend on the states. -/
theorem particle_filter_evidence_bounds [NeZero N] (rng : Rng K) (mdl : FKModel K X Inp) (dummy : X) {R : Resampler K N X}
    {pf : Platform} {θ : ℝ}
    (hR : R = multinomial rng pf ∨ R = systematic rng pf ∨ R = killing rng pf ∨
      R = adaptive (multinomial rng pf) θ ∨ R = adaptive (systematic rng pf) θ ∨
      R = adaptive (killing rng pf) θ)
    (u0 : Inp) (us : List Inp) (k : K) (a b : Inp → ℝ)
    (hab : ∀ u ∈ us, ∀ x x', Between (a u) (b u) (mdl.logPotential x x' u)) :
    ∃ S : ℕ → PFState K X Inp N,
      filter rng.toPrng (particleFilter rng.toPrng mdl dummy N R) (u0 :: us) false (some k) =
        ⟨false, .ok ((List.range (us.length + 1)).map fun t => .ok (S t))⟩ ∧
      ∀ t ≤ us.length, Between ((us.take t).map a).sum ((us.take t).map b).sum (S t).logZ := by
  have key : ∀ I L, Uses R I L → (∀ k l, (∀ i, (l i).IsFin) → ∀ i, (L k l i).IsFin) →
      ∃ S : ℕ → PFState K X Inp N,
        filter rng.toPrng (particleFilter rng.toPrng mdl dummy N R) (u0 :: us) false (some k) =
          ⟨false, .ok ((List.range (us.length + 1)).map fun t => .ok (S t))⟩ ∧
        ∀ t ≤ us.length, Between ((us.take t).map a).sum ((us.take t).map b).sum (S t).logZ :=
    fun I L h1 h2 => ⟨_, filter_pf_eq h1 dummy u0 us k, fun t ht => (pfRun_between h2 u0 us k a b hab t ht).2⟩
  have h0 : ∀ (k : K) (l : Fin N → Fl), (∀ i, (l i).IsFin) → ∀ i, (zeroLogits k l i).IsFin := fun _ _ _ _ => trivial
  have ha : ∀ (k : K) (l : Fin N → Fl), (∀ i, (l i).IsFin) → ∀ i, (adaptLogits zeroLogits θ k l i).IsFin := by
    intro k l hl i
    unfold adaptLogits
    split_ifs
    · trivial
    · exact hl i
  rcases hR with rfl | rfl | rfl | rfl | rfl | rfl
  · exact key _ _ (uses_multinomial rng pf) h0
  · exact key _ _ (uses_systematic rng pf) h0
  · exact key _ _ (uses_killing rng pf) h0
  · exact key _ _ (uses_adaptive (uses_multinomial rng pf) θ) ha
  · exact key _ _ (uses_adaptive (uses_systematic rng pf) θ) ha
  · exact key _ _ (uses_adaptive (uses_killing rng pf) θ) ha

/-- **C114** (weights). When the filter resamples at every step, no particle of the next step has more than
`exp (b - a)` times, or less than `exp (a - b)` times, its fair share of the weight. -/
theorem particle_filter_weight_bounds [NeZero N] (rng : Rng K) (mdl : FKModel K X Inp) (dummy : X) {R : Resampler K N X}
    {pf : Platform} (hR : R = multinomial rng pf ∨ R = systematic rng pf ∨ R = killing rng pf)
    (u0 : Inp) (us : List Inp) (k : K) (a b : Inp → ℝ)
    (hab : ∀ u ∈ us, ∀ x x', Between (a u) (b u) (mdl.logPotential x x' u)) :
    ∃ S : ℕ → PFState K X Inp N,
      filter rng.toPrng (particleFilter rng.toPrng mdl dummy N R) (u0 :: us) false (some k) =
        ⟨false, .ok ((List.range (us.length + 1)).map fun t => .ok (S t))⟩ ∧
      ∀ t (ht : t < us.length) i, Real.exp (a us[t] - b us[t]) / N ≤ nw (S (t + 1)).logWeights i ∧
        nw (S (t + 1)).logWeights i ≤ Real.exp (b us[t] - a us[t]) / N := by
  obtain ⟨I, hI⟩ : ∃ I, Uses R I zeroLogits := by
    rcases hR with rfl | rfl | rfl
    · exact ⟨_, uses_multinomial rng pf⟩
    · exact ⟨_, uses_systematic rng pf⟩
    · exact ⟨_, uses_killing rng pf⟩
  refine ⟨_, filter_pf_eq hI dummy u0 us k, fun t ht i => ?_⟩
  rw [pfRun_succ u0 us k t ht]
  generalize pfRun rng.toPrng mdl I zeroLogits u0 us k t = s at *
  have hu := hab us[t] (List.getElem_mem _)
  generalize rng.toPrng.nth k (us.length + 1) ⟨t + 1, _⟩ = k'
  have hB : ∀ i, Between (a us[t]) (b us[t]) ((stepTo rng.toPrng mdl I zeroLogits s us[t] k').logWeights i) := by
    intro i
    obtain ⟨r, hr, h1, h2⟩ := hu (s.particles (I (rng.toPrng.nth s.key (N + 1) 0) s.logWeights i)) (mdl.propagate
      (rng.toPrng.nth s.key (N + 1) i.succ) (s.particles (I (rng.toPrng.nth s.key (N + 1) 0) s.logWeights i)) us[t])
    refine ⟨r, ?_, h1, h2⟩
    have h3 : (stepTo rng.toPrng mdl I zeroLogits s us[t] k').logWeights i = Fl.fin r + 0 := congrArg (· + 0) hr
    rw [h3, add_zero]
  generalize (stepTo rng.toPrng mdl I zeroLogits s us[t] k').logWeights = w at *
  have hN : (0 : ℝ) < N := by exact_mod_cast NeZero.pos N
  have hs1 : N * Real.exp (a us[t]) ≤ ∑ j, (w j).lik := by
    have := Finset.sum_le_sum fun j (_ : j ∈ Finset.univ) => (hB j).lik.1
    simpa using this
  have hs2 : ∑ j, (w j).lik ≤ N * Real.exp (b us[t]) := by
    have := Finset.sum_le_sum fun j (_ : j ∈ Finset.univ) => (hB j).lik.2
    simpa using this
  have hs0 : 0 < ∑ j, (w j).lik := lt_of_lt_of_le (mul_pos hN (Real.exp_pos _)) hs1
  constructor
  · rw [nw, Real.exp_sub, div_div, div_le_div_iff₀ (by positivity) hs0]
    calc Real.exp (a us[t]) * ∑ j, (w j).lik ≤ (w i).lik * (N * Real.exp (b us[t])) :=
          mul_le_mul (hB i).lik.1 hs2 hs0.le (Fl.lik_nonneg _)
      _ = _ := by ring
  · rw [nw, Real.exp_sub, div_div, div_le_div_iff₀ hs0 (by positivity)]
    calc (w i).lik * (Real.exp (a us[t]) * N) = (w i).lik * (N * Real.exp (a us[t])) := by ring
      _ ≤ Real.exp (b us[t]) * ∑ j, (w j).lik :=
          mul_le_mul (hB i).lik.2 hs1 (by positivity) (Real.exp_pos _).le

/-- **C114** (marginal particle filter, resampling at every step). -/
theorem marginal_filter_evidence_bounds [NeZero N] (rng : Rng K) (mdl : FKModel K X Inp) (dummy : X) {R : Resampler K N X}
    {pf : Platform} (hR : R = multinomial rng pf ∨ R = systematic rng pf ∨ R = killing rng pf)
    (u0 : Inp) (us : List Inp) (k : K) (a b : Inp → ℝ)
    (hab : ∀ u ∈ us, ∀ x x', Between (a u) (b u) (mdl.logPotential x x' u)) :
    ∃ states, (filter rng.toPrng (marginalParticleFilter rng.toPrng mdl dummy N R) (u0 :: us) false (some k)).result =
        .ok states ∧ states.length = us.length + 1 ∧
      ∀ t ≤ us.length, ∃ s, states[t]? = some (.ok s) ∧
        Between ((us.take t).map a).sum ((us.take t).map b).sum s.logZ ∧
        ∀ (ht : t - 1 < us.length) i, 0 < t → Between (a us[t - 1]) (b us[t - 1]) (s.logWeights i) := by
  obtain ⟨I, hI⟩ : ∃ I, Uses R I zeroLogits := by
    rcases hR with rfl | rfl | rfl
    · exact ⟨_, uses_multinomial rng pf⟩
    · exact ⟨_, uses_systematic rng pf⟩
    · exact ⟨_, uses_killing rng pf⟩
  obtain ⟨states, h1, h2, h3, h4⟩ := marginal_run rng.toPrng mdl dummy R u0 us k
  have main : ∀ t ≤ us.length, ∃ s, states[t]? = some (.ok s) ∧
      Between ((us.take t).map a).sum ((us.take t).map b).sum s.logZ ∧ (∀ i, (s.logWeights i).IsFin) ∧
        ∀ (ht : t - 1 < us.length) i, 0 < t → Between (a us[t - 1]) (b us[t - 1]) (s.logWeights i) := by
    intro t
    induction t with
    | zero =>
      intro _
      refine ⟨_, h3, ⟨0, ?_, by simp, by simp⟩, fun _ => trivial, fun _ _ h => absurd h (by omega)⟩
      have hN : (0 : ℝ) < N := by exact_mod_cast NeZero.pos N
      simp only [logsumexp_zero, Fl.log_fin _ hN, Fl.fin_sub, sub_self]
    | succ t ih =>
      intro ht
      obtain ⟨s, hs, hz, hw, -⟩ := ih (by omega)
      have hu := hab us[t] (List.getElem_mem _)
      have h5 := h4 t (by omega) _ hs
      rw [h5]
      have hnext : ∀ x', Between (a us[t]) (b us[t]) (Fl.logsumexp fun j => mdl.logPotential (s.particles j) x' us[t] +
          (s.logWeights j - Fl.logsumexp s.logWeights)) := by
        intro x'
        have hf : ∀ j, (s.logWeights j - Fl.logsumexp s.logWeights).IsFin := by
          intro j
          rw [logsumexp_eq (isLogits_of_fin hw)]
          cases h : s.logWeights j with
          | fin r => trivial
          | _ => have := hw j; rw [h] at this; exact this.elim
        have h6 := logsumexp_between (fun j => hu (s.particles j) x') hf
        have h7 : (Fl.logsumexp fun j => s.logWeights j - Fl.logsumexp s.logWeights) = 0 := by
          have h8 := mixture_weight (isLogits_of_fin hw) (g := fun _ => 0) (fun _ => trivial)
          simp only [zero_add] at h8
          rw [h8]
          simp only [Fl.zero_def, Fl.lik, Real.exp_zero, mul_one, nw_sum (isLogits_of_fin hw)]
          rw [Fl.log_fin _ one_pos, Real.log_one]
        rw [h7] at h6
        obtain ⟨r, hr, h8⟩ := h6
        refine ⟨r, ?_, h8⟩
        rw [← hr, Fl.zero_def]
        cases (Fl.logsumexp fun j => mdl.logPotential (s.particles j) x' us[t] +
          (s.logWeights j - Fl.logsumexp s.logWeights)) <;> simp [Fl.sub_def, Fl.add_def, Fl.neg_def, Fl.neg, Fl.add]
      refine ⟨_, congrArg some (marginalFilterCombine_eq (hI _ _ _) rfl rfl), ?_, fun i => (hnext _).isFin, fun _ i _ => hnext _⟩
      rw [sum_take_succ a us t (by omega), sum_take_succ b us t (by omega)]
      refine Between.add ?_ hz
      have h9 := logsumexp_between (fun i : Fin N => hnext (mdl.propagate (rng.toPrng.nth s.key (N + 1) i.succ)
        (s.particles (I (rng.toPrng.nth s.key (N + 1) 0) s.logWeights i)) us[t])) (l := fun _ => 0) (fun _ => trivial)
      simp only [add_zero] at h9
      exact h9
  exact ⟨states, h1, h2, fun t ht => by
    obtain ⟨s, h5, h6, -, h7⟩ := main t ht
    exact ⟨s, h5, h6, h7⟩⟩

/-- Logistic potentials of a random walk lie between numbers. -/
example (rng : Rng K) : ∃ mdl : FKModel K ℝ ℝ, (∀ u x x', Between (-1 - |u|) 0 (mdl.logPotential x x' u)) ∧
    ∃ u x x' y, mdl.logPotential x x' u ≠ mdl.logPotential x y u := by
  refine ⟨⟨fun k _ => rng.uniform0 k, fun k x _ => x + rng.uniform0 k, fun _ x' u => Fl.fin (-|u| * (1 / (1 + x' ^ 2)))⟩,
    fun u x x' => ⟨_, rfl, ?_, ?_⟩, 1, 0, 0, 1, ?_⟩
  · have h1 : 1 / (1 + x' ^ 2) ≤ 1 := by rw [div_le_one (by positivity)]; nlinarith [sq_nonneg x']
    nlinarith [abs_nonneg u]
  · have h1 : 0 ≤ 1 / (1 + x' ^ 2) := by positivity
    nlinarith [abs_nonneg u]
  · norm_num

end

end Cuthbert.SMC
