import Verif.Model.RoundedParticleFilter
import Verif.Props.RoundedWeights
import Verif.Props.ParticleFilterRuns

/-!
# C139: the log normalising constant of a particle filter in floating point
-/

namespace Cuthbert.SMC
open Cuthbert Resampling Discrete Spec Fl

noncomputable section

variable {K X Inp : Type} {N : ℕ} {A : Arith} {fl : ℝ → ℝ} {u B : ℝ}

/-- `-∞`, or a number between `-a` and `a`. -/
def SizeAtMost (a : ℝ) (x : Fl) : Prop := x = ninf ∨ ∃ r, x = fin r ∧ |r| ≤ a

/-- Adding `-∞` to a number or to `-∞` gives `-∞`. -/
def AddsNegInf (A : Arith) : Prop :=
  A.add ninf ninf = ninf ∧ ∀ r, A.add ninf (fin r) = ninf ∧ A.add (fin r) ninf = ninf

/-- The log of a sum of weights of bounded size. -/
theorem log_sum_size {l : Fin N → Fl} {a : ℝ} (h : ∀ i, SizeAtMost a (l i)) (hex : ∃ i, (l i).IsFin) :
    0 < ∑ i, (l i).lik ∧ |Real.log (∑ i, (l i).lik)| ≤ a + Real.log N := by
  obtain ⟨j, hj⟩ := hex
  have hN : (1 : ℝ) ≤ N := by exact_mod_cast (Nat.succ_le_of_lt (lt_of_le_of_lt (Nat.zero_le _) j.isLt))
  have hlN : 0 ≤ Real.log N := Real.log_nonneg hN
  have hlow : Real.exp (-a) ≤ ∑ i, (l i).lik := by
    refine le_trans ?_ (Finset.single_le_sum (fun i _ => lik_nonneg (l i)) (Finset.mem_univ j))
    rcases h j with h | ⟨r, h, hr⟩
    · rw [h] at hj; exact hj.elim
    · rw [h]
      exact Real.exp_le_exp.mpr (by linarith [neg_abs_le r])
  have hup : ∑ i, (l i).lik ≤ N * Real.exp a := by
    have : ∑ i, (l i).lik ≤ ∑ _i : Fin N, Real.exp a := Finset.sum_le_sum fun i _ => by
      rcases h i with h | ⟨r, h, hr⟩
      · rw [h]; exact (Real.exp_pos a).le
      · rw [h]; exact Real.exp_le_exp.mpr (by linarith [le_abs_self r])
    simpa using this
  have hpos : 0 < ∑ i, (l i).lik := (Real.exp_pos _).trans_le hlow
  refine ⟨hpos, abs_le.mpr ⟨?_, ?_⟩⟩
  · have := (Real.le_log_iff_exp_le hpos).mpr hlow
    linarith
  · have := Real.log_le_log hpos hup
    rw [Real.log_mul (by linarith) (Real.exp_pos a).ne', Real.log_exp] at this
    linarith

/-- Changing log weights by at most `δ` changes the log of the sum by at most `δ`. -/
theorem log_sum_perturb {l l' : Fin N → Fl} {δ : ℝ}
    (h : ∀ i, (l i = ninf ∧ l' i = ninf) ∨ ∃ r r', l i = fin r ∧ l' i = fin r' ∧ |r' - r| ≤ δ) (hpos : 0 < ∑ i, (l i).lik) :
    |Real.log (∑ i, (l' i).lik) - Real.log (∑ i, (l i).lik)| ≤ δ := by
  have hi : ∀ i, Real.exp (-δ) * (l i).lik ≤ (l' i).lik ∧ (l' i).lik ≤ Real.exp δ * (l i).lik := by
    intro i
    rcases h i with ⟨h1, h2⟩ | ⟨r, r', h1, h2, h3⟩
    · rw [h1, h2]; simp [Fl.lik]
    · rw [h1, h2]
      simp only [Fl.lik]
      rw [← Real.exp_add, ← Real.exp_add]
      have := abs_le.mp h3
      exact ⟨Real.exp_le_exp.mpr (by linarith), Real.exp_le_exp.mpr (by linarith)⟩
  have h1 : Real.exp (-δ) * ∑ i, (l i).lik ≤ ∑ i, (l' i).lik := by
    rw [Finset.mul_sum]; exact Finset.sum_le_sum fun i _ => (hi i).1
  have h2 : ∑ i, (l' i).lik ≤ Real.exp δ * ∑ i, (l i).lik := by
    rw [Finset.mul_sum]; exact Finset.sum_le_sum fun i _ => (hi i).2
  have hpos' : 0 < ∑ i, (l' i).lik := (mul_pos (Real.exp_pos _) hpos).trans_le h1
  have h3 := Real.log_le_log (mul_pos (Real.exp_pos _) hpos) h1
  have h4 := Real.log_le_log hpos' h2
  rw [Real.log_mul (Real.exp_pos _).ne' hpos.ne', Real.log_exp] at h3 h4
  exact abs_le.mpr ⟨by linarith, by linarith⟩

/-- The error of one increment of the log normalising constant. -/
def incrErr (N : ℕ) (u B W : ℝ) : ℝ := u * (10 * W + 6 * Real.log N) + 12 * sumErr N u B

theorem increment_near (hA : A.AccurateExp fl u B) (hinf : AddsNegInf A) (hu : u ≤ 1 / 4) (hB : 1 ≤ B)
    (hτ : N * Real.exp (-B + u * B) ≤ 1 / 2) {g l : Fin N → Fl} {G V : ℝ} (hG : 0 ≤ G) (hV : 0 ≤ V)
    (hg : ∀ i, SizeAtMost G (g i)) (hl : ∀ i, SizeAtMost V (l i)) (hex : ∃ i, (g i).IsFin ∧ (l i).IsFin) :
    ∃ d, A.sub (logsumexpWith A fun i => A.add (g i) (l i)) (logsumexpWith A l) = fin d ∧
      |d - (Real.log (∑ i, (g i).lik * (l i).lik) - Real.log (∑ i, (l i).lik))| ≤ incrErr N u B (G + V) := by
  have hu0 := hA.accurate.unit_nonneg
  obtain ⟨j, hj1, hj2⟩ := hex
  have hN : (1 : ℝ) ≤ N := by exact_mod_cast (Nat.succ_le_of_lt (lt_of_le_of_lt (Nat.zero_le _) j.isLt))
  have hlN : 0 ≤ Real.log N := Real.log_nonneg hN
  have hκ0 : 0 ≤ sumErr N u B := by unfold sumErr; positivity
  -- the rounded weights
  have hw : ∀ i, (g i + l i = ninf ∧ A.add (g i) (l i) = ninf) ∨
      ∃ r r', g i + l i = fin r ∧ A.add (g i) (l i) = fin r' ∧ |r' - r| ≤ u * (G + V) ∧ |r| ≤ G + V := by
    intro i
    rcases hg i with h1 | ⟨a, h1, ha⟩ <;> rcases hl i with h2 | ⟨b, h2, hb⟩ <;> rw [h1, h2]
    · exact .inl ⟨rfl, hinf.1⟩
    · exact .inl ⟨rfl, (hinf.2 b).1⟩
    · exact .inl ⟨rfl, (hinf.2 a).2⟩
    · obtain ⟨c, hc, hce⟩ := hA.accurate.add a b
      have hab : |a + b| ≤ G + V := (abs_add_le a b).trans (add_le_add ha hb)
      exact .inr ⟨a + b, c, rfl, hc, hce.trans (mul_le_mul_of_nonneg_left hab hu0), hab⟩
  have hmul : ∀ i, (g i + l i).lik = (g i).lik * (l i).lik := by
    intro i
    rcases hg i with h1 | ⟨a, h1, ha⟩ <;> rcases hl i with h2 | ⟨b, h2, hb⟩ <;> rw [h1, h2] <;>
      exact Fl.lik_add trivial trivial
  have hsz : ∀ i, SizeAtMost (G + V) (g i + l i) := fun i => by
    rcases hw i with ⟨h, -⟩ | ⟨r, r', h, -, -, hr⟩
    exacts [.inl h, .inr ⟨r, h, hr⟩]
  obtain ⟨hpos, hsize⟩ := log_sum_size hsz ⟨j, hj1.add hj2⟩
  obtain ⟨hposl, hsizel⟩ := log_sum_size hl ⟨j, hj2⟩
  have hpert := log_sum_perturb (l := fun i => g i + l i) (l' := fun i => A.add (g i) (l i)) (δ := u * (G + V))
    (fun i => (hw i).imp id fun ⟨r, r', a, b, c, _⟩ => ⟨r, r', a, b, c⟩) hpos
  simp only [hmul] at hpos hsize hpert
  have hIs : IsLogits fun i => A.add (g i) (l i) := by
    refine ⟨fun i => ?_, j, ?_⟩
    · dsimp only
      rcases hw i with ⟨-, h⟩ | ⟨r, r', -, h, -⟩ <;> rw [h] <;> trivial
    · dsimp only
      rcases hw j with ⟨h, -⟩ | ⟨r, r', -, h, -⟩
      · have := hj1.add hj2; rw [h] at this; exact this.elim
      · rw [h]; trivial
  have hIsl : IsLogits l := ⟨fun i => by rcases hl i with h | ⟨r, h, -⟩ <;> rw [h] <;> trivial, j, hj2⟩
  obtain ⟨p, hp, hpe⟩ := logsumexpWith_near hA hIs hu hB hτ
  obtain ⟨q, hq, hqe⟩ := logsumexpWith_near hA hIsl hu hB hτ
  obtain ⟨d, hd, hde⟩ := hA.accurate.sub p q
  refine ⟨d, by rw [hp, hq, hd], ?_⟩
  obtain ⟨a, ha⟩ : ∃ a, a = Real.log (∑ i, (g i).lik * (l i).lik) := ⟨_, rfl⟩
  obtain ⟨b, hb⟩ : ∃ b, b = Real.log (∑ i, (l i).lik) := ⟨_, rfl⟩
  obtain ⟨a', ha'⟩ : ∃ a', a' = Real.log (∑ i, (A.add (g i) (l i)).lik) := ⟨_, rfl⟩
  obtain ⟨κ, hκ⟩ : ∃ κ, κ = sumErr N u B := ⟨_, rfl⟩
  obtain ⟨Λ, hΛ⟩ : ∃ Λ, Λ = Real.log N := ⟨_, rfl⟩
  rw [incrErr]
  rw [← ha, ← hb, ← hκ, ← hΛ]
  rw [← ha, ← ha'] at hpert
  rw [← ha, ← hΛ] at hsize
  rw [← hb, ← hΛ] at hsizel
  rw [← ha', ← hκ] at hpe
  rw [← hb, ← hκ] at hqe
  rw [← hκ] at hκ0
  rw [← hΛ] at hlN
  clear hΛ hκ ha hb ha'
  have huW : u * (G + V) ≤ 1 / 4 * (G + V) := mul_le_mul_of_nonneg_right hu (by linarith)
  have h1 : |a'| ≤ 2 * (G + V) + Λ := by
    have := abs_sub_abs_le_abs_sub a' a
    linarith
  have h2 : |p - a| ≤ u * (G + V) + u * (2 * (G + V) + Λ) + 3 * κ := by
    have e1 : |p - a| ≤ |p - a'| + |a' - a| := abs_sub_le _ _ _
    have e2 := mul_le_mul_of_nonneg_left h1 hu0
    linarith
  have h3 : |q - b| ≤ u * (V + Λ) + 3 * κ := by
    have e2 := mul_le_mul_of_nonneg_left hsizel hu0
    linarith
  have h4 : |(p - q) - (a - b)| ≤ u * (3 * (G + V) + V + 2 * Λ) + 6 * κ := by
    have e1 : |(p - q) - (a - b)| ≤ |p - a| + |q - b| := by
      rw [show (p - q) - (a - b) = (p - a) - (q - b) by ring]
      exact abs_sub _ _
    linarith
  have h5 : |p - q| ≤ (G + V + Λ) + (V + Λ) + (u * (3 * (G + V) + V + 2 * Λ) + 6 * κ) := by
    have e1 := abs_sub_abs_le_abs_sub (p - q) (a - b)
    have e2 : |a - b| ≤ |a| + |b| := abs_sub _ _
    linarith
  have h6 : |d - (a - b)| ≤ |d - (p - q)| + |(p - q) - (a - b)| := abs_sub_le _ _ _
  have h7 := mul_le_mul_of_nonneg_left h5 hu0
  have h8 : u * (u * (3 * (G + V) + V + 2 * Λ) + 6 * κ) ≤ 1 / 4 * (u * (3 * (G + V) + V + 2 * Λ) + 6 * κ) :=
    mul_le_mul_of_nonneg_right hu (by positivity)
  have h9 : 0 ≤ u * G := mul_nonneg hu0 hG
  have h10 : 0 ≤ u * V := mul_nonneg hu0 hV
  have h11 : 0 ≤ u * Λ := mul_nonneg hu0 hlN
  nlinarith [h6, h7, h8, hde, h4, hκ0, h9, h10, h11]

theorem init_near [NeZero N] (hA : A.AccurateExp fl u B) (hu : u ≤ 1 / 4) (hB : 1 ≤ B)
    (hτ : N * Real.exp (-B + u * B) ≤ 1 / 2) {W : ℝ} (hW : 0 ≤ W) :
    ∃ z, A.sub (logsumexpWith A (fun _ : Fin N => 0)) (A.log (fin N)) = fin z ∧ |z| ≤ incrErr N u B W := by
  have hu0 := hA.accurate.unit_nonneg
  have hN : (1 : ℝ) ≤ N := by exact_mod_cast NeZero.pos N
  have hlN : 0 ≤ Real.log N := Real.log_nonneg hN
  have hκ0 : 0 ≤ sumErr N u B := by unfold sumErr; positivity
  obtain ⟨p, hp, hpe⟩ := logsumexpWith_near hA (l := fun _ : Fin N => 0) ⟨fun _ => trivial, 0, trivial⟩ hu hB hτ
  have hs : ∑ _i : Fin N, (0 : Fl).lik = N := by
    have : (0 : Fl).lik = 1 := Real.exp_zero
    simp [this]
  rw [hs, abs_of_nonneg hlN] at hpe
  obtain ⟨q, hq, hqe⟩ := hA.accurate.log N (by linarith)
  rw [abs_of_nonneg hlN] at hqe
  obtain ⟨z, hz, hze⟩ := hA.accurate.sub p q
  refine ⟨z, by rw [hp, hq, hz], ?_⟩
  rw [incrErr]
  obtain ⟨κ, hκ⟩ : ∃ κ, κ = sumErr N u B := ⟨_, rfl⟩
  obtain ⟨Λ, hΛ⟩ : ∃ Λ, Λ = Real.log N := ⟨_, rfl⟩
  rw [← hκ, ← hΛ]
  rw [← hΛ, ← hκ] at hpe
  rw [← hΛ] at hqe hlN
  rw [← hκ] at hκ0
  have h1 : |p - q| ≤ 2 * (u * Λ) + 3 * κ := by
    have : |p - q| ≤ |p - Λ| + |Λ - q| := abs_sub_le _ _ _
    rw [abs_sub_comm Λ q] at this
    linarith
  have h2 : |z| ≤ |z - (p - q)| + |p - q| := by
    have := abs_add_le (z - (p - q)) (p - q)
    rwa [sub_add_cancel] at this
  have h3 : u * |p - q| ≤ 1 / 4 * |p - q| := mul_le_mul_of_nonneg_right hu (abs_nonneg _)
  have h4 : 0 ≤ u * Λ := mul_nonneg hu0 hlN
  have h5 : 0 ≤ u * W := mul_nonneg hu0 hW
  nlinarith

/-- What the particle filter reports if it does not round, for the log potentials `g t i` and resampled log weights `l t i`
of the particles: the sum of the logs of the weighted averages of the potentials. -/
def exactLogZ (g l : ℕ → Fin N → Fl) (t : ℕ) : ℝ :=
  ∑ s ∈ Finset.range t, Real.log ((∑ i, (g s i).lik * (l s i).lik) / ∑ i, (l s i).lik)

/-- Consecutive states of a run of the particle filter with rounding. -/
theorem filter_run_with [NeZero N] (A : Arith) (rng : Prng K) (mdl : FKModel K X Inp) (dummy : X) (R : Resampler K N X)
    (hR : ∀ k l pos, ∃ r, R k l pos N = .ok r) (u0 : Inp) (us : List Inp) (k : K) :
    ∃ (S : ℕ → PFState K X Inp N) (r : ℕ → Resampled N N X),
      (filter rng (particleFilterWith A rng mdl dummy N R) (u0 :: us) false (some k)).result =
        .ok ((List.range (us.length + 1)).map fun t => .ok (S t)) ∧
      (S 0).logZ = A.sub (logsumexpWith A (fun _ : Fin N => 0)) (A.log (fin N)) ∧
      ∀ t (ht : t < us.length), R (rng.nth (S t).key (N + 1) 0) (S t).logWeights (S t).particles N = .ok (r t) ∧
        (S (t + 1)).modelInputs = us[t] ∧ (S (t + 1)).ancestors = (r t).idx ∧
        (∀ i, (S (t + 1)).logWeights i =
          A.add (mdl.logPotential ((r t).positions i) ((S (t + 1)).particles i) us[t]) ((r t).logits i)) ∧
        (S (t + 1)).logZ =
          A.add (A.sub (logsumexpWith A (S (t + 1)).logWeights) (logsumexpWith A (r t).logits)) (S t).logZ := by
  obtain ⟨states, hst⟩ : ∃ states, states = runningFold (particleFilterWith A rng mdl dummy N R).filterCombine
    ((particleFilterWith A rng mdl dummy N R).initPrepare u0 (keyAt rng (some k) (us.length + 1) 0))
    (filterElems rng (particleFilterWith A rng mdl dummy N R) us (some k)) := ⟨_, rfl⟩
  have hres : (filter rng (particleFilterWith A rng mdl dummy N R) (u0 :: us) false (some k)).result = .ok states := by
    rw [hst]; exact filter_sequential_eq rng _ u0 us (some k)
  have hlen : states.length = us.length + 1 := by rw [hst, runningFold_length, filterElems_length]
  have h0 : ∃ s, states[0]? = some (.ok s) ∧ s.logZ = A.sub (logsumexpWith A (fun _ : Fin N => 0)) (A.log (fin N)) := by
    obtain ⟨k0, hk0⟩ : ∃ k0, keyAt rng (some k) (us.length + 1) 0 = some k0 :=
      ⟨_, List.getElem?_eq_getElem (by rw [rng.length_split]; omega)⟩
    refine ⟨⟨k0, fun i => mdl.initSample (rng.nth k0 N i) u0, fun _ => 0, id, u0,
      A.sub (logsumexpWith A fun _ => 0) (A.log (fin N))⟩, ?_, rfl⟩
    rw [hst, hk0]
    cases filterElems rng (particleFilterWith A rng mdl dummy N R) us (some k) <;> rfl
  have hstep : ∀ t (ht : t < us.length) s, states[t]? = some (.ok s) → ∃ r s',
      R (rng.nth s.key (N + 1) 0) s.logWeights s.particles N = .ok r ∧ states[t + 1]? = some (.ok s') ∧
        s'.modelInputs = us[t] ∧ s'.ancestors = r.idx ∧
        (∀ i, s'.logWeights i = A.add (mdl.logPotential (r.positions i) (s'.particles i) us[t]) (r.logits i)) ∧
        s'.logZ = A.add (A.sub (logsumexpWith A s'.logWeights) (logsumexpWith A r.logits)) s.logZ := by
    intro t ht s hs
    have hel := filterElems_get rng (particleFilterWith A rng mdl dummy N R) us (some k) t
    rw [List.getElem?_eq_getElem ht, Option.map_some] at hel
    obtain ⟨k', hk'⟩ : ∃ k', keyAt rng (some k) (us.length + 1) (t + 1) = some k' :=
      ⟨_, List.getElem?_eq_getElem (by rw [rng.length_split]; omega)⟩
    rw [hk'] at hel
    rw [hst] at hs
    have h1 := runningFold_get_succ _ _ _ t _ _ hel hs
    rw [← hst] at h1
    obtain ⟨r, hr⟩ := hR (rng.nth s.key (N + 1) 0) s.logWeights s.particles
    have h2 : (particleFilterWith A rng mdl dummy N R).filterCombine (.ok s)
        ((particleFilterWith A rng mdl dummy N R).filterPrepare us[t] (some k')) = filterCombineWith A rng mdl R s
          ⟨k', fun _ => dummy, fun _ => 0, id, us[t], 0⟩ := rfl
    rw [h2, filterCombineWith] at h1
    simp only [hr] at h1
    exact ⟨r, _, hr, h1, rfl, rfl, fun i => rfl, rfl⟩
  have hall : ∀ t, ∃ s, t ≤ us.length → states[t]? = some (.ok s) := by
    intro t
    induction t with
    | zero => obtain ⟨s, hs, -⟩ := h0; exact ⟨s, fun _ => hs⟩
    | succ t ih =>
      obtain ⟨s, hs⟩ := ih
      by_cases ht : t < us.length
      · obtain ⟨r, s', -, h, -⟩ := hstep t ht s (hs ht.le)
        exact ⟨s', fun _ => h⟩
      · exact ⟨s, fun h => absurd h (by omega)⟩
  choose S hS using hall
  have hr : ∀ t, ∃ r, R (rng.nth (S t).key (N + 1) 0) (S t).logWeights (S t).particles N = .ok r := fun t => hR _ _ _
  choose r hr using hr
  refine ⟨S, r, ?_, ?_, fun t ht => ?_⟩
  · rw [hres]
    congr 1
    refine List.ext_getElem? fun t => ?_
    by_cases ht : t ≤ us.length
    · rw [hS t ht, List.getElem?_map, List.getElem?_range (by omega)]
      rfl
    · rw [List.getElem?_eq_none (by omega), List.getElem?_eq_none (by simp; omega)]
  · obtain ⟨s, hs, hz⟩ := h0
    have := hS 0 (Nat.zero_le _)
    rw [hs] at this
    rw [← Except.ok.inj (Option.some.inj this), hz]
  · obtain ⟨r', s', h1, h2, h3⟩ := hstep t ht (S t) (hS t ht.le)
    rw [hr t] at h1
    rw [hS (t + 1) (by omega)] at h2
    cases h1
    cases h2
    exact ⟨hr t, h3⟩

/-- **C139.** If every operation on the weights has a relative error of at most `u`, the log normalising constant that the
particle filter reports after `t` steps differs by at most `2 (t + 1) (u (10 (G + V) + 6 log N + Z) + 12 κ)`, with
`κ = (N + 1 + 2 B) u + 2 N exp(-B + u B)`, from the sum of the logs of the weighted averages of the potentials of the particles
of this very run; `G` bounds the log potentials, `V` the log weights that the resampling function returns, `Z` the exact
partial sums. Any potentials and weights may be `-∞` as long as at each step one particle has a positive weight. The
proposals and the resampling function are arbitrary, so their rounding errors are included. -/
theorem particle_filter_rounded [NeZero N] (hA : A.AccurateExp fl u B) (hinf : AddsNegInf A) (hu : u ≤ 1 / 4) (hB : 1 ≤ B)
    (hτ : N * Real.exp (-B + u * B) ≤ 1 / 2) (rng : Prng K) (mdl : FKModel K X Inp) (dummy : X) (R : Resampler K N X)
    (hR : ∀ k l pos, ∃ r, R k l pos N = .ok r) (u0 : Inp) (us : List Inp) (k : K) :
    ∃ (S : ℕ → PFState K X Inp N) (r : ℕ → Resampled N N X),
      (filter rng (particleFilterWith A rng mdl dummy N R) (u0 :: us) false (some k)).result =
        .ok ((List.range (us.length + 1)).map fun t => .ok (S t)) ∧
      (∀ t < us.length, R (rng.nth (S t).key (N + 1) 0) (S t).logWeights (S t).particles N = .ok (r t)) ∧
      ∀ (G V Z : ℝ) (T : ℕ) (g : ℕ → Fin N → Fl), 0 ≤ G → 0 ≤ V → T ≤ us.length → T * u ≤ 1 / 2 →
        (∀ t (ht : t < us.length) i, g t i = mdl.logPotential ((r t).positions i) ((S (t + 1)).particles i) us[t]) →
        (∀ t < T, (∀ i, SizeAtMost G (g t i)) ∧ (∀ i, SizeAtMost V ((r t).logits i)) ∧
          ∃ i, (g t i).IsFin ∧ ((r t).logits i).IsFin) →
        (∀ t ≤ T, |exactLogZ g (fun t => (r t).logits) t| ≤ Z) →
        ∀ t ≤ T, ∃ z, (S t).logZ = fin z ∧ |z - exactLogZ g (fun t => (r t).logits) t| ≤
          2 * (t + 1) * (u * (10 * (G + V) + 6 * Real.log N + Z) + 12 * sumErr N u B) := by
  have hu0 := hA.accurate.unit_nonneg
  obtain ⟨S, r, h1, h2, h3⟩ := filter_run_with A rng mdl dummy R hR u0 us k
  refine ⟨S, r, h1, fun t ht => (h3 t ht).1, fun G V Z T g hG hV hT hTu hg hb hZ => ?_⟩
  obtain ⟨c, hc⟩ : ∃ c, c = incrErr N u B (G + V) := ⟨_, rfl⟩
  have hN : (1 : ℝ) ≤ N := by exact_mod_cast NeZero.pos N
  have hlN : 0 ≤ Real.log N := Real.log_nonneg hN
  have hκ0 : 0 ≤ sumErr N u B := by unfold sumErr; positivity
  have hZ0 : 0 ≤ Z := (abs_nonneg _).trans (hZ 0 (Nat.zero_le _))
  have hc0 : 0 ≤ c := by rw [hc, incrErr]; positivity
  have main : ∀ t ≤ T, ∃ z, (S t).logZ = fin z ∧
      |z - exactLogZ g (fun t => (r t).logits) t| ≤ (1 + u) ^ t * ((t + 1) * (c + u * Z)) := by
    intro t
    induction t with
    | zero =>
      intro _
      obtain ⟨z, hz, hze⟩ := init_near hA hu hB hτ (add_nonneg hG hV)
      refine ⟨z, by rw [h2, hz], ?_⟩
      have : 0 ≤ u * Z := mul_nonneg hu0 hZ0
      simp only [exactLogZ, Finset.range_zero, Finset.sum_empty, sub_zero, pow_zero, Nat.cast_zero]
      rw [← hc] at hze
      linarith
    | succ t ih =>
      intro ht
      obtain ⟨z, hz, hze⟩ := ih (by omega)
      have htl : t < us.length := by omega
      obtain ⟨-, -, -, hw, hzz⟩ := h3 t htl
      obtain ⟨b1, b2, b3⟩ := hb t (by omega)
      obtain ⟨d, hd, hde⟩ := increment_near hA hinf hu hB hτ hG hV b1 b2 b3
      have hw' : (S (t + 1)).logWeights = fun i => A.add (g t i) ((r t).logits i) := by
        funext i
        rw [hw i, hg t htl i]
      rw [hw', hd, hz] at hzz
      obtain ⟨z', hz', hze'⟩ := hA.accurate.add d z
      refine ⟨z', by rw [hzz, hz'], ?_⟩
      have hpl : 0 < ∑ i, ((r t).logits i).lik := (log_sum_size b2 (b3.imp fun i h => h.2)).1
      have hpg : 0 < ∑ i, (g t i).lik * ((r t).logits i).lik := by
        obtain ⟨i, hi, hi'⟩ := b3
        refine Finset.sum_pos' (fun i _ => mul_nonneg (lik_nonneg _) (lik_nonneg _)) ⟨i, Finset.mem_univ i, ?_⟩
        cases hgi : g t i <;> rw [hgi] at hi <;> first | exact hi.elim | skip
        cases hli : (r t).logits i <;> rw [hli] at hi' <;> first | exact hi'.elim | skip
        exact mul_pos (Real.exp_pos _) (Real.exp_pos _)
      have hZt := hZ (t + 1) ht
      obtain ⟨e, he⟩ : ∃ e, e = exactLogZ g (fun t => (r t).logits) t := ⟨_, rfl⟩
      obtain ⟨e', he'⟩ : ∃ e', e' = exactLogZ g (fun t => (r t).logits) (t + 1) := ⟨_, rfl⟩
      have hee : e' = e + (Real.log (∑ i, (g t i).lik * ((r t).logits i).lik) - Real.log (∑ i, ((r t).logits i).lik)) := by
        rw [he', he, exactLogZ, Finset.sum_range_succ, ← exactLogZ, Real.log_div hpg.ne' hpl.ne']
      rw [← he'] at hZt ⊢
      rw [← he] at hze
      rw [← hc] at hde
      obtain ⟨δ, hδ⟩ : ∃ δ, δ = Real.log (∑ i, (g t i).lik * ((r t).logits i).lik) - Real.log (∑ i, ((r t).logits i).lik) :=
        ⟨_, rfl⟩
      rw [← hδ] at hde hee
      obtain ⟨E, hE⟩ : ∃ E : ℝ, E = (1 + u) ^ t * ((t + 1) * (c + u * Z)) := ⟨_, rfl⟩
      rw [← hE] at hze
      have a1 : |d + z - e'| ≤ c + E := by
        rw [hee, show d + z - (e + δ) = (d - δ) + (z - e) by ring]
        exact (abs_add_le _ _).trans (add_le_add hde hze)
      have a2 : |d + z| ≤ Z + (c + E) := by
        have := abs_sub_abs_le_abs_sub (d + z) e'
        linarith
      have a3 : |z' - e'| ≤ |z' - (d + z)| + |d + z - e'| := abs_sub_le _ _ _
      have a4 := mul_le_mul_of_nonneg_left a2 hu0
      have a5 : |z' - e'| ≤ (1 + u) * (E + (c + u * Z)) := by nlinarith [mul_nonneg hu0 (mul_nonneg hu0 hZ0)]
      refine a5.trans ?_
      have a6 : (1 : ℝ) ≤ (1 + u) ^ t := one_le_pow₀ (by linarith)
      have a7 : 0 ≤ c + u * Z := add_nonneg hc0 (mul_nonneg hu0 hZ0)
      have a8 : c + u * Z ≤ (1 + u) ^ t * (c + u * Z) := le_mul_of_one_le_left a7 a6
      rw [hE, pow_succ]
      push_cast
      have a9 : (1 + u) * ((1 + u) ^ t * ((t + 1) * (c + u * Z)) + (c + u * Z)) ≤
          (1 + u) * ((1 + u) ^ t * ((t + 1) * (c + u * Z)) + (1 + u) ^ t * (c + u * Z)) :=
        mul_le_mul_of_nonneg_left (by linarith) (by linarith)
      refine a9.trans (le_of_eq ?_)
      ring
  intro t ht
  obtain ⟨z, hz, hze⟩ := main t ht
  refine ⟨z, hz, hze.trans ?_⟩
  have hpow : (1 + u) ^ t ≤ 2 := by
    have h4 : (1 + u) ^ t ≤ Real.exp (t * u) := by
      rw [Real.exp_nat_mul]
      exact pow_le_pow_left₀ (by linarith) (by linarith [Real.add_one_le_exp u]) t
    have h5 : (t : ℝ) * u ≤ 1 / 2 := (mul_le_mul_of_nonneg_right (by exact_mod_cast ht) hu0).trans hTu
    have h6 : Real.exp (1 / 2) ≤ 2 := by
      have := Real.exp_bound_div_one_sub_of_interval (x := 1 / 2) (by norm_num) (by norm_num)
      norm_num at this ⊢
      exact this
    exact h4.trans ((Real.exp_le_exp.mpr h5).trans h6)
  have hcz : c + u * Z = u * (10 * (G + V) + 6 * Real.log N + Z) + 12 * sumErr N u B := by rw [hc, incrErr]; ring
  rw [← hcz]
  have hnn : 0 ≤ ((t : ℝ) + 1) * (c + u * Z) := mul_nonneg (by positivity) (add_nonneg hc0 (mul_nonneg hu0 hZ0))
  calc (1 + u) ^ t * ((t + 1) * (c + u * Z)) ≤ 2 * ((t + 1) * (c + u * Z)) := mul_le_mul_of_nonneg_right hpow hnn
    _ = _ := by ring

/-- Floating-point arithmetic adds `-∞` as it should. -/
theorem float_addsNegInf (fl : ℝ → ℝ) (B : ℝ) : AddsNegInf (Arith.float fl B) := ⟨rfl, fun _ => ⟨rfl, rfl⟩⟩

/-- A resampling function that always resamples, and so returns equal weights. -/
def AlwaysResamples (R : Resampler K N X) : Prop := ∀ k l pos, ∃ r, R k l pos N = .ok r ∧ ∀ i, r.logits i = 0

theorem multinomial_alwaysResamples [NeZero N] (rng : Rng K) (pf : Platform) :
    AlwaysResamples (X := X) (N := N) (multinomial rng pf) := fun k l pos => ⟨_, multinomial_eq rng pf k l pos N, fun _ => rfl⟩

theorem systematic_alwaysResamples [NeZero N] (rng : Rng K) (pf : Platform) :
    AlwaysResamples (X := X) (N := N) (systematic rng pf) := fun k l pos => ⟨_, systematic_eq rng pf k l pos N, fun _ => rfl⟩

theorem killing_alwaysResamples [NeZero N] (rng : Rng K) (pf : Platform) :
    AlwaysResamples (X := X) (N := N) (killing rng pf) := fun k l pos => ⟨_, killing_eq rng pf k l pos, fun _ => rfl⟩

/-- **C139** (floating point, resampling at each step). With `p` bits, the log normalising constant that the particle filter
reports after `t` of at most `T` steps is the sum of the logs of the averages of the potentials, up to
`2 (t + 1) (2^(1-p) (10 G + 6 log N + T (G + log N)) + 12 κ)`. -/
theorem particle_filter_rounded_float [NeZero N] {p : ℕ} (hp : 3 ≤ p) (hfl : RoundsToNearest p fl) (hB : 1 ≤ B)
    (hu : u = 2 * 2 ^ (-(p : ℤ))) (hτ : N * Real.exp (-B + u * B) ≤ 1 / 2) (rng : Prng K) (mdl : FKModel K X Inp) (dummy : X)
    (R : Resampler K N X) (hR : AlwaysResamples R) (u0 : Inp) (us : List Inp) (k : K) :
    ∃ (S : ℕ → PFState K X Inp N) (pos : ℕ → Fin N → X),
      (filter rng (particleFilterWith (Arith.float fl B) rng mdl dummy N R) (u0 :: us) false (some k)).result =
        .ok ((List.range (us.length + 1)).map fun t => .ok (S t)) ∧
      ∀ (G : ℝ) (T : ℕ) (g : ℕ → Fin N → Fl), 0 ≤ G → T ≤ us.length → T * u ≤ 1 / 2 →
        (∀ t (ht : t < us.length) i, g t i = mdl.logPotential (pos t i) ((S (t + 1)).particles i) us[t]) →
        (∀ t < T, (∀ i, SizeAtMost G (g t i)) ∧ ∃ i, (g t i).IsFin) →
        ∀ t ≤ T, ∃ z, (S t).logZ = fin z ∧ |z - ∑ s ∈ Finset.range t, Real.log (1 / N * ∑ i, (g s i).lik)| ≤
          2 * (t + 1) * (u * (10 * G + 6 * Real.log N + T * (G + Real.log N)) + 12 * sumErr N u B) := by
  have hA := float_accurateExp (B := B) (by omega) hfl
  rw [← hu] at hA
  have hu4 : u ≤ 1 / 4 := by
    rw [hu, zpow_neg, zpow_natCast]
    have : (8 : ℝ) ≤ 2 ^ p := by
      calc (8 : ℝ) = 2 ^ 3 := by norm_num
        _ ≤ 2 ^ p := pow_le_pow_right₀ one_le_two hp
    have h2 : ((2 : ℝ) ^ p)⁻¹ ≤ 8⁻¹ := inv_anti₀ (by norm_num) this
    linarith
  obtain ⟨S, r, h1, h2, h3⟩ := particle_filter_rounded hA (float_addsNegInf fl B) hu4 hB hτ rng mdl dummy R
    (fun k l pos => (hR k l pos).imp fun _ h => h.1) u0 us k
  refine ⟨S, fun t => (r t).positions, h1, fun G T g hG hT hTu hg hb => ?_⟩
  have hN : (1 : ℝ) ≤ N := by exact_mod_cast NeZero.pos N
  have hlN : 0 ≤ Real.log N := Real.log_nonneg hN
  have hlog : ∀ t < us.length, ∀ i, (r t).logits i = 0 := by
    intro t ht
    obtain ⟨r', e1, e2⟩ := hR (rng.nth (S t).key (N + 1) 0) (S t).logWeights (S t).particles
    rw [h2 t ht] at e1
    cases e1
    exact e2
  have hlik : (0 : Fl).lik = 1 := Real.exp_zero
  have hterm : ∀ t < us.length, Real.log ((∑ i, (g t i).lik * ((r t).logits i).lik) / ∑ i, ((r t).logits i).lik) =
      Real.log (1 / N * ∑ i, (g t i).lik) := by
    intro t ht
    simp only [hlog t ht, hlik, mul_one, Finset.sum_const, Finset.card_univ, Fintype.card_fin, nsmul_eq_mul]
    rw [div_eq_inv_mul, one_div]
  have hex : ∀ t ≤ T, exactLogZ g (fun t => (r t).logits) t = ∑ s ∈ Finset.range t, Real.log (1 / N * ∑ i, (g s i).lik) :=
    fun t ht => Finset.sum_congr rfl fun s hs => hterm s (by have := Finset.mem_range.mp hs; omega)
  have hone : ∀ t < T, |Real.log (1 / N * ∑ i, (g t i).lik)| ≤ G + Real.log N := by
    intro t ht
    obtain ⟨b1, j, b2⟩ := hb t ht
    obtain ⟨hpos, -⟩ := log_sum_size b1 ⟨j, b2⟩
    rw [one_div, Real.log_mul (inv_ne_zero (by linarith)) hpos.ne', Real.log_inv]
    have hlow : Real.exp (-G) ≤ ∑ i, (g t i).lik := by
      refine le_trans ?_ (Finset.single_le_sum (fun i _ => lik_nonneg (g t i)) (Finset.mem_univ j))
      rcases b1 j with h | ⟨x, h, hx⟩
      · rw [h] at b2; exact b2.elim
      · rw [h]
        exact Real.exp_le_exp.mpr (by linarith [neg_abs_le x])
    have hup : ∑ i, (g t i).lik ≤ N * Real.exp G := by
      have : ∑ i, (g t i).lik ≤ ∑ _i : Fin N, Real.exp G := Finset.sum_le_sum fun i _ => by
        rcases b1 i with h | ⟨x, h, hx⟩
        · rw [h]; exact (Real.exp_pos G).le
        · rw [h]; exact Real.exp_le_exp.mpr (by linarith [le_abs_self x])
      simpa using this
    have e1 := (Real.le_log_iff_exp_le hpos).mpr hlow
    have e2 := Real.log_le_log hpos hup
    rw [Real.log_mul (by linarith) (Real.exp_pos G).ne', Real.log_exp] at e2
    exact abs_le.mpr ⟨by linarith, by linarith⟩
  have hGl : 0 ≤ G + Real.log N := add_nonneg hG hlN
  have hZ : ∀ t ≤ T, |exactLogZ g (fun t => (r t).logits) t| ≤ T * (G + Real.log N) := by
    intro t ht
    rw [hex t ht]
    refine (Finset.abs_sum_le_sum_abs _ _).trans ?_
    have e1 : ∑ s ∈ Finset.range t, |Real.log (1 / N * ∑ i, (g s i).lik)| ≤ ∑ _s ∈ Finset.range t, (G + Real.log N) :=
      Finset.sum_le_sum fun s hs => hone s (by have := Finset.mem_range.mp hs; omega)
    rw [Finset.sum_const, Finset.card_range, nsmul_eq_mul] at e1
    exact e1.trans (mul_le_mul_of_nonneg_right (by exact_mod_cast ht) hGl)
  intro t ht
  obtain ⟨z, hz, hze⟩ := h3 G 0 _ T g hG le_rfl hT hTu hg (fun t ht => ⟨(hb t ht).1, fun i => by
    rw [hlog t (by omega) i]; exact .inr ⟨0, rfl, by simp⟩, (hb t ht).2.imp fun i hi => ⟨hi, by
      rw [hlog t (by omega) i]; trivial⟩⟩) hZ t ht
  rw [hex t ht, add_zero] at hze
  exact ⟨z, hz, hze⟩

/-- C139: with exact arithmetic, a step is that of `Model/SMC.lean`, as long as some particle has a positive weight. -/
theorem filterCombineWith_exact (rng : Prng K) (mdl : FKModel K X Inp) (R : Resampler K N X) (s1 s2 : PFState K X Inp N)
    (h : ∀ r, R (rng.nth s1.key (N + 1) 0) s1.logWeights s1.particles N = .ok r → IsLogits r.logits ∧ IsLogits fun i =>
      mdl.logPotential (r.positions i) (mdl.propagate (rng.nth s1.key (N + 1) i.succ) (r.positions i) s2.modelInputs)
        s2.modelInputs + r.logits i) :
    filterCombineWith Arith.exact rng mdl R s1 s2 = filterCombine rng mdl R s1 s2 := by
  unfold filterCombineWith filterCombine
  cases hr : R (rng.nth s1.key (N + 1) 0) s1.logWeights s1.particles N with
  | error e => simp only [bind, Except.bind, hr]
  | ok r =>
    obtain ⟨h1, h2⟩ := h r hr
    have e1 := logsumexpWith_exact h1
    have e2 := logsumexpWith_exact h2
    have e3 : ∀ a b, Arith.exact.add a b = a + b := fun _ _ => rfl
    have e4 : ∀ a b, Arith.exact.sub a b = a - b := fun _ _ => rfl
    simp only [bind, Except.bind, hr, e3, e4, e1, e2]

/-- C139: with exact arithmetic, the first state is that of `Model/SMC.lean`. -/
theorem initPrepareWith_exact [NeZero N] (rng : Prng K) (mdl : FKModel K X Inp) (inp : Inp) (key : Option K) :
    initPrepareWith Arith.exact rng mdl N inp key = initPrepare rng mdl N inp key := by
  unfold initPrepareWith initPrepare
  cases key with
  | none => rfl
  | some k =>
    have e1 := logsumexpWith_exact (N := N) (l := fun _ => 0) ⟨fun _ => trivial, 0, trivial⟩
    have e2 : ∀ a b, Arith.exact.sub a b = a - b := fun _ _ => rfl
    have e3 : ∀ a, Arith.exact.log a = Fl.log a := fun _ => rfl
    simp only [e1, e2, e3]

/-- Non-vacuity: the potentials of a standard Gaussian likelihood on `[-10, 10]` in double precision with a million particles. -/
example (hfl : RoundsToNearest 53 fl) (rng : Prng K) (rs : Rng K) (pf : Platform) (prop : K → ℝ → ℝ → ℝ) (k : K) (u0 : ℝ)
    (us : List ℝ) :
    ∃ S : ℕ → PFState K ℝ ℝ 1000000,
      (filter rng (particleFilterWith (Arith.float fl 700) rng
        ⟨fun k _ => prop k 0 0, prop, fun _ x y => fin (-(max (-10) (min 10 (y - x))) ^ 2 / 2)⟩ 0 1000000 (multinomial rs pf))
        (u0 :: us) false (some k)).result = .ok ((List.range (us.length + 1)).map fun t => .ok (S t)) ∧
      ∀ T ≤ us.length, T * (2 * 2 ^ (-((53 : ℕ) : ℤ)) : ℝ) ≤ 1 / 2 → ∀ t ≤ T, ∃ z, (S t).logZ = fin z := by
  have hexp : ((1000000 : ℕ) : ℝ) * Real.exp (-700 + 2 * 2 ^ (-((53 : ℕ) : ℤ)) * 700) ≤ 1 / 2 := by
    have h1 : (-700 + 2 * 2 ^ (-((53 : ℕ) : ℤ)) * 700 : ℝ) ≤ -30 := by norm_num
    have h2 : (2 : ℝ) ^ 30 ≤ Real.exp 30 := by
      have h3 : Real.exp 30 = Real.exp 1 ^ 30 := by rw [← Real.exp_nat_mul]; norm_num
      rw [h3]
      exact pow_le_pow_left₀ (by norm_num) (by linarith [Real.add_one_le_exp (1 : ℝ)]) 30
    have h4 : Real.exp (-30) ≤ (2 ^ 30)⁻¹ := by
      rw [Real.exp_neg]
      exact inv_anti₀ (by norm_num) h2
    have h5 := (Real.exp_le_exp.mpr h1).trans h4
    have h6 : ((1000000 : ℕ) : ℝ) * (2 ^ 30)⁻¹ ≤ 1 / 2 := by norm_num
    exact (mul_le_mul_of_nonneg_left h5 (by positivity)).trans h6
  obtain ⟨S, pos, h1, h2⟩ := particle_filter_rounded_float (N := 1000000) (by norm_num) hfl (by norm_num) rfl hexp rng
    ⟨fun k _ => prop k 0 0, prop, fun _ x y => fin (-(max (-10) (min 10 (y - x))) ^ 2 / 2)⟩ 0 (multinomial rs pf)
    (multinomial_alwaysResamples rs pf) u0 us k
  refine ⟨S, h1, fun T hT hTu t ht => ?_⟩
  obtain ⟨g, hg⟩ : ∃ g : ℕ → Fin 1000000 → Fl, g = fun t i => if ht : t < us.length then
    fin (-(max (-10) (min 10 (us[t] - (S (t + 1)).particles i))) ^ 2 / 2) else 0 := ⟨_, rfl⟩
  have hgt : ∀ t (ht : t < us.length) i, g t i = fin (-(max (-10) (min 10 (us[t] - (S (t + 1)).particles i))) ^ 2 / 2) := by
    intro t ht i
    rw [hg]
    exact dif_pos ht
  have hb : ∀ t < T, (∀ i, SizeAtMost 50 (g t i)) ∧ ∃ i, (g t i).IsFin := by
    intro t ht
    have htl : t < us.length := by omega
    refine ⟨fun i => ?_, 0, by rw [hgt t htl]; trivial⟩
    rw [hgt t htl]
    refine .inr ⟨_, rfl, ?_⟩
    obtain ⟨m, hm⟩ : ∃ m, m = max (-10) (min 10 (us[t] - (S (t + 1)).particles i)) := ⟨_, rfl⟩
    rw [← hm]
    have hm1 : -10 ≤ m := by rw [hm]; exact le_max_left _ _
    have hm2 : m ≤ 10 := by rw [hm]; exact max_le (by norm_num) (min_le_left _ _)
    exact abs_le.mpr ⟨by nlinarith, by nlinarith⟩
  obtain ⟨z, hz, -⟩ := h2 50 T g (by norm_num) hT hTu (fun t ht i => hgt t ht i) hb t ht
  exact ⟨z, hz⟩

end

end Cuthbert.SMC
