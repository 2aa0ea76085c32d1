import Verif.Lemmas.IMH

/-!
# Lemmas: convergence of independent Metropolis-Hastings backward sampling
-/

namespace Cuthbert.SMC
open MeasureTheory Set Resampling Spec
open scoped ENNReal

noncomputable section

variable {K X Inp : Type} {N n : ℕ}

/-! ### A finite Markov chain with a minorised kernel -/

section chain

variable {S : Type} [Fintype S]

/-- The distribution after `t` steps of the kernel `κ` from `μ`. -/
def chainLaw (κ : S → S → ℝ) (μ : S → ℝ) : ℕ → S → ℝ
  | 0 => μ
  | t + 1 => fun b => ∑ s, chainLaw κ μ t s * κ s b

theorem chainLaw_nonneg {κ : S → S → ℝ} {μ : S → ℝ} (hκ : ∀ s b, 0 ≤ κ s b) (hμ : ∀ s, 0 ≤ μ s) :
    ∀ t s, 0 ≤ chainLaw κ μ t s
  | 0, s => hμ s
  | t + 1, _ => Finset.sum_nonneg fun s _ => mul_nonneg (chainLaw_nonneg hκ hμ t s) (hκ s _)

theorem chainLaw_sum {κ : S → S → ℝ} {μ : S → ℝ} (hκ : ∀ s, ∑ b, κ s b = 1) (hμ : ∑ s, μ s = 1) :
    ∀ t, ∑ s, chainLaw κ μ t s = 1
  | 0 => hμ
  | t + 1 => by
    simp only [chainLaw]
    rw [Finset.sum_comm]
    simp only [← Finset.mul_sum, hκ, mul_one]
    exact chainLaw_sum hκ hμ t

/-- If every row of the kernel dominates `ε` times an invariant distribution, the chain approaches that
distribution geometrically. -/
theorem chainLaw_contract {κ : S → S → ℝ} {μ π : S → ℝ} {ε : ℝ} (hκ : ∀ s, ∑ b, κ s b = 1) (hμ : ∑ s, μ s = 1)
    (hπ : ∑ s, π s = 1) (hinv : ∀ b, ∑ s, π s * κ s b = π b) (hε : ∀ s b, ε * π b ≤ κ s b) :
    ∀ t, ∑ s, |chainLaw κ μ t s - π s| ≤ (1 - ε) ^ t * ∑ s, |μ s - π s|
  | 0 => by simp [chainLaw]
  | t + 1 => by
    have h1 : ∀ b, chainLaw κ μ (t + 1) b - π b = ∑ s, (chainLaw κ μ t s - π s) * (κ s b - ε * π b) := by
      intro b
      simp only [mul_sub, Finset.sum_sub_distrib, ← Finset.sum_mul, sub_mul, hinv]
      rw [chainLaw_sum hκ hμ, hπ, sub_self, sub_zero]
      rfl
    have hrow : ∀ s, ∑ b, (κ s b - ε * π b) = 1 - ε := by
      intro s
      rw [Finset.sum_sub_distrib, hκ, ← Finset.mul_sum, hπ, mul_one]
    have hε1 : 0 ≤ 1 - ε := by
      by_cases hS : Nonempty S
      · obtain ⟨s⟩ := hS
        rw [← hrow s]
        exact Finset.sum_nonneg fun b _ => by linarith [hε s b]
      · rw [not_nonempty_iff] at hS
        simp at hμ
    calc ∑ b, |chainLaw κ μ (t + 1) b - π b|
        ≤ ∑ b, ∑ s, |chainLaw κ μ t s - π s| * (κ s b - ε * π b) := by
          refine Finset.sum_le_sum fun b _ => ?_
          rw [h1]
          refine (Finset.abs_sum_le_sum_abs _ _).trans_eq ?_
          refine Finset.sum_congr rfl fun s _ => ?_
          rw [abs_mul, abs_of_nonneg (a := κ s b - ε * π b) (by linarith [hε s b])]
      _ = (1 - ε) * ∑ s, |chainLaw κ μ t s - π s| := by
          rw [Finset.sum_comm, Finset.mul_sum]
          refine Finset.sum_congr rfl fun s _ => ?_
          rw [← Finset.mul_sum, hrow, mul_comm]
      _ ≤ (1 - ε) * ((1 - ε) ^ t * ∑ s, |μ s - π s|) :=
          mul_le_mul_of_nonneg_left (chainLaw_contract hκ hμ hπ hinv hε t) hε1
      _ = _ := by ring

end chain

/-! ### The chain of one slot

Its state is an index and whether the log density with which the slot was initialised is still carried. -/

/-- A lower bound on the probability of acceptance. -/
theorem le_accProb {p c : Fl} {G : ℝ} (hp : p.IsLog) (hc : c.IsLog) (hG : 0 < G) (hpG : p.lik ≤ G)
    (hcG : c.lik ≤ G) : p.lik / G ≤ accProb p c := by
  cases c with
  | nan => exact absurd hc (by simp [Fl.IsLog])
  | pinf => exact absurd hc (by simp [Fl.IsLog])
  | fin r =>
    rw [accProb_eq hp]
    refine le_min ((div_le_one hG).mpr hpG) ?_
    exact div_le_div_of_nonneg_left (Fl.lik_nonneg _) (Real.exp_pos _) hcG
  | ninf =>
    cases p with
    | nan => exact absurd hp (by simp [Fl.IsLog])
    | pinf => exact absurd hp (by simp [Fl.IsLog])
    | ninf =>
      simp only [Fl.lik, zero_div]
      exact (accProb_mem _ _).1
    | fin r =>
      have h1 : Ioo 0 1 ⊆ {u : ℝ | accepts (Fl.fin r) Fl.ninf u = true} := by
        intro u hu
        rw [mem_ofPred_eq, accepts, Fl.ltb_iff]
        have h2 : Fl.log (Fl.fin u) = Fl.fin (Real.log u) := by simp [Fl.log, hu.1]
        rw [h2]
        exact trivial
      have h2 : accProb (Fl.fin r) Fl.ninf = 1 := by
        rw [accProb, le_antisymm prob_le_one (le_trans (le_of_eq ?_) (measure_mono h1)), ENNReal.toReal_one]
        rw [unif_eq, Measure.restrict_apply measurableSet_Ioo, inter_self, Real.volume_Ioo]
        simp
      rw [h2]
      exact (div_le_one hG).mpr hpG

section slot

variable [MeasurableSpace K] {P : Measure K} {rng : Rng K}

/-- The log density that a slot carries. -/
def carried (p : Fin N → Fl) (c : Fl) (s : Fin N × Bool) : Fl := if s.2 then c else p s.1

/-- The kernel of one slot. -/
def slotKernel (w : Fin N → ℝ) (p : Fin N → Fl) (c : Fl) (s s' : Fin N × Bool) : ℝ :=
  jumpProb (fun i => (i, false)) w (fun i => accProb (p i) (carried p c s)) s s'

/-- The target on the extended states. -/
def slotTarget (q : Fin N → ℝ) (s : Fin N × Bool) : ℝ := if s.2 then 0 else q s.1

theorem jumpProb_nonneg {S : Type} [DecidableEq S] {g : Fin N → S} {w α : Fin N → ℝ} (hw : ∀ i, 0 ≤ w i)
    (hα : ∀ i, 0 ≤ α i ∧ α i ≤ 1) (a b : S) : 0 ≤ jumpProb g w α a b := by
  refine Finset.sum_nonneg fun i _ => mul_nonneg (hw i) ?_
  have := hα i
  exact add_nonneg (mul_nonneg this.1 (by split_ifs <;> norm_num))
    (mul_nonneg (by linarith [this.2]) (by split_ifs <;> norm_num))

theorem jumpProb_sum {S : Type} [DecidableEq S] [Fintype S] {g : Fin N → S} {w α : Fin N → ℝ}
    (hw : ∑ i, w i = 1) (a : S) : ∑ b, jumpProb g w α a b = 1 := by
  simp only [jumpProb]
  rw [Finset.sum_comm]
  simp only [← Finset.mul_sum, Finset.sum_add_distrib, Finset.sum_ite_eq, Finset.mem_univ, if_true]
  refine Eq.trans (Finset.sum_congr rfl fun i _ => ?_) hw
  ring

theorem slotKernel_nonneg {w : Fin N → ℝ} (hw : ∀ i, 0 ≤ w i) (p : Fin N → Fl) (c : Fl) (s s') :
    0 ≤ slotKernel w p c s s' := jumpProb_nonneg hw (fun _ => accProb_mem _ _) s s'

theorem slotKernel_minor {w : Fin N → ℝ} (hw : ∀ i, 0 ≤ w i) {p : Fin N → Fl} {c : Fl} (hp : ∀ i, (p i).IsLog)
    (hc : c.IsLog) {G Z : ℝ} (hG : 0 < G) (hpG : ∀ i, (p i).lik ≤ G) (hcG : c.lik ≤ G) (hZ : 0 < Z)
    {q : Fin N → ℝ} (hq : ∀ i, q i = w i * (p i).lik / Z) (s s' : Fin N × Bool) :
    Z / G * slotTarget q s' ≤ slotKernel w p c s s' := by
  obtain ⟨j, t⟩ := s'
  cases t with
  | true => simpa [slotTarget] using slotKernel_nonneg hw p c s (j, true)
  | false =>
    have hcl : (carried p c s).IsLog ∧ (carried p c s).lik ≤ G := by
      rw [carried]
      split_ifs
      exacts [⟨hc, hcG⟩, ⟨hp _, hpG _⟩]
    have h1 := le_accProb (hp j) hcl.1 hG (hpG j) hcl.2
    calc Z / G * slotTarget q (j, false) = w j * ((p j).lik / G) := by
          simp only [slotTarget, hq, Bool.false_eq_true, if_false]
          field_simp
      _ ≤ w j * accProb (p j) (carried p c s) := mul_le_mul_of_nonneg_left h1 (hw j)
      _ ≤ w j * (accProb (p j) (carried p c s) * (if (j, false) = (j, false) then 1 else 0) +
            (1 - accProb (p j) (carried p c s)) * if s = (j, false) then 1 else 0) := by
          refine mul_le_mul_of_nonneg_left ?_ (hw j)
          rw [if_pos rfl, mul_one]
          have := accProb_mem (p j) (carried p c s)
          exact le_add_of_nonneg_right (mul_nonneg (by linarith [this.2]) (by split_ifs <;> norm_num))
      _ ≤ _ := by
          rw [slotKernel, jumpProb]
          refine Finset.single_le_sum (f := fun i => w i * (accProb (p i) (carried p c s) *
            (if ((i, false) : Fin N × Bool) = (j, false) then 1 else 0) +
            (1 - accProb (p i) (carried p c s)) * if s = (j, false) then 1 else 0)) (fun i _ => ?_)
            (Finset.mem_univ j)
          refine mul_nonneg (hw i) ?_
          have := accProb_mem (p i) (carried p c s)
          exact add_nonneg (mul_nonneg this.1 (by split_ifs <;> norm_num))
            (mul_nonneg (by linarith [this.2]) (by split_ifs <;> norm_num))

theorem slotKernel_invariant {w : Fin N → ℝ} (hw : ∑ i, w i = 1) {p : Fin N → Fl} (c : Fl) (hp : ∀ i, (p i).IsLog)
    {q : Fin N → ℝ} (hq : ∀ i, q i = w i * (p i).lik / ∑ j, w j * (p j).lik) (s' : Fin N × Bool) :
    ∑ s, slotTarget q s * slotKernel w p c s s' = slotTarget q s' := by
  rw [Fintype.sum_prod_type]
  simp only [Fintype.sum_bool, slotTarget, if_true, zero_mul, zero_add, Bool.false_eq_true, if_false]
  obtain ⟨b, t⟩ := s'
  cases t with
  | true =>
    simp only [if_true]
    refine Finset.sum_eq_zero fun i _ => ?_
    rw [slotKernel, jumpProb]
    simp
  | false =>
    simp only [Bool.false_eq_true, if_false]
    have h6 := slotProb_invariant (w := w) (f := fun i => (p i).lik) (q := q)
      (α := fun i j => accProb (p j) (p i)) (fun i => Fl.lik_nonneg _) hw hq (fun i j hi => by
        have hi' := hp i
        obtain ⟨r, hr⟩ : ∃ r, r = p i := ⟨_, rfl⟩
        simp only [← hr] at hi hi' ⊢
        cases r with
        | nan => exact absurd hi' (by simp [Fl.IsLog])
        | pinf => exact absurd hi' (by simp [Fl.IsLog])
        | ninf => simp [Fl.lik] at hi
        | fin r => exact accProb_eq (hp j) r) b
    rw [← h6]
    refine Finset.sum_congr rfl fun i _ => ?_
    congr 1
    rw [slotKernel, jumpProb, slotProb]
    refine Finset.sum_congr rfl fun j _ => ?_
    simp [carried]

/-! ### The chain of all slots -/

/-- One step of all slots. -/
def extMove [NeZero N] (rng : Rng K) (pf : Platform) (l : Fin N → Fl) (p : Fin n → Fin N → Fl) (c : Fin n → Fl)
    (kp ka : K) (s : Fin n → Fin N × Bool) : Fin n → Fin N × Bool :=
  slotMove rng pf l p (fun i => (i, false)) (fun m => carried (p m) (c m) (s m)) kp ka s

omit [MeasurableSpace K] in
theorem imhScan_ext [NeZero N] (rng : Rng K) (pf : Platform) (x0 : Fin N → X) (x1 : Fin n → X)
    (l : Fin N → Fl) (ld : X → X → Fl) (nSteps : ℕ) (keys : Fin (nSteps * 2) → K) (c : Fin n → Fl)
    (s : Fin n → Fin N × Bool) : ∀ (t : ℕ) (h : t ≤ nSteps),
    imhScan rng pf x0 x1 l ld nSteps keys ⟨fun m => (s m).1, fun m => x0 (s m).1,
        fun m => carried (fun i => ld (x0 i) (x1 m)) (c m) (s m)⟩ t h =
      .ok ⟨fun m => (runIdx (extMove rng pf l (fun m i => ld (x0 i) (x1 m)) c) s t (nSteps * 2) (by omega) keys m).1,
        fun m => x0 (runIdx (extMove rng pf l (fun m i => ld (x0 i) (x1 m)) c) s t (nSteps * 2) (by omega) keys m).1,
        fun m => carried (fun i => ld (x0 i) (x1 m)) (c m)
          (runIdx (extMove rng pf l (fun m i => ld (x0 i) (x1 m)) c) s t (nSteps * 2) (by omega) keys m)⟩
  | 0, _ => rfl
  | t + 1, h => by
    rw [imhScan, imhScan_ext rng pf x0 x1 l ld nSteps keys c s t (by omega)]
    obtain ⟨r, hr⟩ : ∃ r, r = runIdx (extMove rng pf l (fun m i => ld (x0 i) (x1 m)) c) s t (nSteps * 2)
      (by omega) keys := ⟨_, rfl⟩
    simp only [runIdx, ← hr]
    obtain ⟨kp, hkp⟩ : ∃ kp, kp = keys ⟨t * 2, by omega⟩ := ⟨_, rfl⟩
    obtain ⟨ka, hka⟩ : ∃ ka, ka = keys ⟨t * 2 + 1, by omega⟩ := ⟨_, rfl⟩
    simp only [← hkp, ← hka]
    have h1 : imhStep rng pf x0 x1 l ld kp ka ⟨fun m => (r m).1, fun m => x0 (r m).1,
        fun m => carried (fun i => ld (x0 i) (x1 m)) (c m) (r m)⟩ = .ok
        ⟨fun m => if accepts (ld (x0 (multinomialIdx rng pf l n kp m)) (x1 m))
            (carried (fun i => ld (x0 i) (x1 m)) (c m) (r m)) (rng.uniform ka n m) then
              multinomialIdx rng pf l n kp m else (r m).1,
          fun m => x0 (if accepts (ld (x0 (multinomialIdx rng pf l n kp m)) (x1 m))
            (carried (fun i => ld (x0 i) (x1 m)) (c m) (r m)) (rng.uniform ka n m) then
              multinomialIdx rng pf l n kp m else (r m).1),
          fun m => if accepts (ld (x0 (multinomialIdx rng pf l n kp m)) (x1 m))
            (carried (fun i => ld (x0 i) (x1 m)) (c m) (r m)) (rng.uniform ka n m) then
              ld (x0 (multinomialIdx rng pf l n kp m)) (x1 m) else
              carried (fun i => ld (x0 i) (x1 m)) (c m) (r m)⟩ := rfl
    have h2 : ∀ m, extMove rng pf l (fun m i => ld (x0 i) (x1 m)) c kp ka r m =
        if accepts (ld (x0 (multinomialIdx rng pf l n kp m)) (x1 m))
            (carried (fun i => ld (x0 i) (x1 m)) (c m) (r m)) (rng.uniform ka n m) then
          (multinomialIdx rng pf l n kp m, false) else r m := fun m => rfl
    refine h1.trans ?_
    simp only [h2]
    congr 2
    · funext m
      split_ifs <;> rfl
    · funext m
      split_ifs <;> rfl
    · funext m
      split_ifs
      · simp [carried]
      · rfl

/-- The law of the states of all slots: independent, each with the law of its own chain. -/
theorem lintegral_ext [NeZero N] (h : IdealRng rng P) (pf : Platform) {l : Fin N → Fl} (hl : IsLogits l)
    (p : Fin n → Fin N → Fl) (c : Fin n → Fl) (s : Fin n → Fin N × Bool) (t : ℕ)
    (G : (Fin n → Fin N × Bool) → ℝ≥0∞) :
    ∫⁻ keys : Fin (t * 2) → K, G (runIdx (extMove rng pf l p c) s t (t * 2) le_rfl keys) ∂(Measure.pi fun _ => P) =
      ∑ b, (∏ m, ENNReal.ofReal (chainLaw (slotKernel (nw l) (p m) (c m)) (fun s' => if s m = s' then 1 else 0) t
        (b m))) * G b := by
  classical
  have := h.prob
  have hst : ∀ a, Measurable fun q : K × K => extMove rng pf l p c q.1 q.2 a := fun a =>
    measurable_slotMove h pf l p _ _ a
  have hcl : ∀ m t s', 0 ≤ chainLaw (slotKernel (nw l) (p m) (c m)) (fun s' => if s m = s' then 1 else 0) t s' :=
    fun m t s' => chainLaw_nonneg (slotKernel_nonneg (nw_nonneg l) _ _) (fun _ => by split_ifs <;> norm_num) t s'
  have h1 := runIdx_chain (P := P) hst (w₀ := fun b => if b = s then 1 else 0)
    (w := fun t b => ∏ m, ENNReal.ofReal (chainLaw (slotKernel (nw l) (p m) (c m))
      (fun s' => if s m = s' then 1 else 0) t (b m))) ?_ ?_ t (t * 2) rfl G
  · rw [← h1]
    simp
  · funext b
    simp only [chainLaw]
    by_cases hb : b = s
    · subst hb
      simp
    · rw [if_neg hb]
      obtain ⟨m, hm⟩ := Function.ne_iff.mp hb
      exact Finset.prod_eq_zero (Finset.mem_univ m) (by simp [Ne.symm hm])
  · intro t G
    have h2 : ∀ a, ∫⁻ ka, ∫⁻ kp, G (extMove rng pf l p c kp ka a) ∂P ∂P =
        ∑ b, (∏ m, ENNReal.ofReal (slotKernel (nw l) (p m) (c m) (a m) (b m))) * G b := fun a =>
      slotMove_law h pf hl p _ _ a G
    simp only [h2, Finset.mul_sum]
    rw [Finset.sum_comm]
    refine Finset.sum_congr rfl fun b _ => ?_
    simp only [← mul_assoc, ← Finset.sum_mul]
    congr 1
    simp only [← Finset.prod_mul_distrib]
    have h5 := Finset.prod_univ_sum (fun _ : Fin n => (Finset.univ : Finset (Fin N × Bool)))
      (fun m s' => ENNReal.ofReal (chainLaw (slotKernel (nw l) (p m) (c m))
        (fun s' => if s m = s' then 1 else 0) t s') * ENNReal.ofReal (slotKernel (nw l) (p m) (c m) s' (b m)))
    rw [Fintype.piFinset_univ] at h5
    rw [← h5]
    refine Finset.prod_congr rfl fun m _ => ?_
    simp only [chainLaw]
    rw [ENNReal.ofReal_sum_of_nonneg]
    · refine Finset.sum_congr rfl fun s' _ => ?_
      rw [ENNReal.ofReal_mul (hcl m t s')]
    · exact fun s' _ => mul_nonneg (hcl m t s') (slotKernel_nonneg (nw_nonneg l) _ _ _ _)

end slot

end

end Cuthbert.SMC
