import Verif.Props.ParticleSmoother

/-!
# Lemmas: independent Metropolis-Hastings backward sampling
-/

namespace Cuthbert.SMC
open MeasureTheory Set Resampling Spec
open scoped ENNReal

noncomputable section

variable {K X Inp : Type} {N n : ℕ}

/-! ### The indices -/

/-- Whether a proposal with log density `p` is accepted for the draw `u` when the current log density
is `c`. -/
def accepts (p c : Fl) (u : ℝ) : Bool := Fl.ltb (Fl.log (Fl.fin u)) (p - c)

/-- The indices after one step from the indices `a` with carried log densities `c`; `p m i` is the log
density of particle `i` for slot `m`. -/
def imhIdx [NeZero N] (rng : Rng K) (pf : Platform) (l : Fin N → Fl) (p : Fin n → Fin N → Fl)
    (c : Fin n → Fl) (kp ka : K) (a : Fin n → Fin N) : Fin n → Fin N := fun m =>
  if accepts (p m (multinomialIdx rng pf l n kp m)) (c m) (rng.uniform ka n m) then
    multinomialIdx rng pf l n kp m else a m

/-- The carry for the indices `a` with the right log densities. -/
def imhCarry (x0 : Fin N → X) (x1 : Fin n → X) (ld : X → X → Fl) (a : Fin n → Fin N) : IMHCarry N n X :=
  ⟨a, fun m => x0 (a m), fun m => ld (x0 (a m)) (x1 m)⟩

theorem imhStep_eq [NeZero N] (rng : Rng K) (pf : Platform) (x0 : Fin N → X) (x1 : Fin n → X)
    (l : Fin N → Fl) (ld : X → X → Fl) (kp ka : K) (a : Fin n → Fin N) (y : Fin n → X) (c : Fin n → Fl) :
    ∃ c', imhStep rng pf x0 x1 l ld kp ka ⟨a, y, c⟩ = .ok
      ⟨imhIdx rng pf l (fun m i => ld (x0 i) (x1 m)) c kp ka a,
        fun m => x0 (imhIdx rng pf l (fun m i => ld (x0 i) (x1 m)) c kp ka a m), c'⟩ :=
  ⟨_, rfl⟩

theorem imhStep_carry [NeZero N] (rng : Rng K) (pf : Platform) (x0 : Fin N → X) (x1 : Fin n → X)
    (l : Fin N → Fl) (ld : X → X → Fl) (kp ka : K) (a : Fin n → Fin N) :
    imhStep rng pf x0 x1 l ld kp ka (imhCarry x0 x1 ld a) = .ok (imhCarry x0 x1 ld
      (imhIdx rng pf l (fun m i => ld (x0 i) (x1 m)) (fun m => ld (x0 (a m)) (x1 m)) kp ka a)) := by
  have h : imhStep rng pf x0 x1 l ld kp ka (imhCarry x0 x1 ld a) = .ok
      ⟨imhIdx rng pf l (fun m i => ld (x0 i) (x1 m)) (fun m => ld (x0 (a m)) (x1 m)) kp ka a,
        fun m => x0 (imhIdx rng pf l (fun m i => ld (x0 i) (x1 m)) (fun m => ld (x0 (a m)) (x1 m)) kp ka a m),
        fun m => if accepts (ld (x0 (multinomialIdx rng pf l n kp m)) (x1 m)) (ld (x0 (a m)) (x1 m))
          (rng.uniform ka n m) then ld (x0 (multinomialIdx rng pf l n kp m)) (x1 m) else
            ld (x0 (a m)) (x1 m)⟩ := rfl
  rw [h, imhCarry]
  congr 2
  funext m
  rw [imhIdx]
  split_ifs <;> rfl

/-- The state after `t` of the steps `st` with the keys of rows `2t` and `2t + 1`. -/
def runIdx {A : Type} (st : K → K → A → A) (a : A) : (t N' : ℕ) → t * 2 ≤ N' → (Fin N' → K) → A
  | 0, _, _, _ => a
  | t + 1, N', h, keys => st (keys ⟨t * 2, by omega⟩) (keys ⟨t * 2 + 1, by omega⟩)
      (runIdx st a t N' (by omega) keys)

theorem runIdx_castLE {A : Type} (st : K → K → A → A) (a : A) {N₁ N₂ : ℕ} (keys : Fin N₂ → K)
    (hN : N₁ ≤ N₂) : ∀ (t : ℕ) (h : t * 2 ≤ N₁),
      runIdx st a t N₂ (h.trans hN) keys = runIdx st a t N₁ h fun i => keys (i.castLE hN)
  | 0, _ => rfl
  | t + 1, h => by
    rw [runIdx, runIdx, runIdx_castLE st a keys hN t (by omega)]
    rfl

/-- One step from indices with the right log densities. -/
def imhMove [NeZero N] (rng : Rng K) (pf : Platform) (x0 : Fin N → X) (x1 : Fin n → X) (l : Fin N → Fl)
    (ld : X → X → Fl) (kp ka : K) (a : Fin n → Fin N) : Fin n → Fin N :=
  imhIdx rng pf l (fun m i => ld (x0 i) (x1 m)) (fun m => ld (x0 (a m)) (x1 m)) kp ka a

theorem imhScan_carry [NeZero N] (rng : Rng K) (pf : Platform) (x0 : Fin N → X) (x1 : Fin n → X)
    (l : Fin N → Fl) (ld : X → X → Fl) (nSteps : ℕ) (keys : Fin (nSteps * 2) → K) (a : Fin n → Fin N) :
    ∀ (t : ℕ) (h : t ≤ nSteps), imhScan rng pf x0 x1 l ld nSteps keys (imhCarry x0 x1 ld a) t h =
      .ok (imhCarry x0 x1 ld (runIdx (imhMove rng pf x0 x1 l ld) a t (nSteps * 2) (by omega) keys))
  | 0, _ => rfl
  | t + 1, h => by
    rw [imhScan, imhScan_carry rng pf x0 x1 l ld nSteps keys a t (by omega)]
    exact imhStep_carry ..

/-! ### Laws -/

section law

variable [MeasurableSpace K] {P : Measure K} {rng : Rng K}

/-- The probability of acceptance. -/
def accProb (p c : Fl) : ℝ := (unif {u | accepts p c u = true}).toReal

theorem measurable_accepts (p c : Fl) : Measurable fun u : ℝ => accepts p c u := by
  have h1 : Measurable fun u : ℝ => (Fl.log (Fl.fin u), p - c) :=
    (Fl.measurable_log.comp Fl.measurable_fin).prodMk measurable_const
  exact Fl.measurable_ltb.comp h1

theorem accProb_mem (p c : Fl) : 0 ≤ accProb p c ∧ accProb p c ≤ 1 := by
  refine ⟨ENNReal.toReal_nonneg, ?_⟩
  have := prob_le_one (μ := unif) (s := {u | accepts p c u = true})
  rw [accProb]
  simpa using ENNReal.toReal_mono ENNReal.one_ne_top this

theorem accProb_eq {p : Fl} (hp : p.IsLog) (c : ℝ) : accProb p (Fl.fin c) = min 1 (p.lik / Real.exp c) := by
  have h0 : {u : ℝ | accepts p (Fl.fin c) u = true} ∩ Ioo 0 1 = Ioo 0 (min 1 (p.lik / Real.exp c)) := by
    ext u
    simp only [mem_inter_iff, mem_Ioo, lt_min_iff, mem_ofPred_eq]
    by_cases hu : 0 < u
    · have h1 : (accepts p (Fl.fin c) u = true) ↔ u < p.lik / Real.exp c := by
        rw [accepts, Fl.ltb_iff]
        have h2 : Fl.log (Fl.fin u) = Fl.fin (Real.log u) := by simp [Fl.log, hu]
        rw [h2]
        cases p with
        | nan => exact absurd hp (by simp [Fl.IsLog])
        | pinf => exact absurd hp (by simp [Fl.IsLog])
        | ninf =>
          have h3 : (Fl.ninf - Fl.fin c : Fl) = Fl.ninf := rfl
          rw [h3]
          simp only [Fl.lik, zero_div]
          constructor
          · intro h; exact absurd h (by simp [LT.lt, Fl.lt])
          · intro h; exact absurd h (not_lt.mpr hu.le)
        | fin r =>
          have h3 : (Fl.fin r - Fl.fin c : Fl) = Fl.fin (r - c) := Fl.fin_sub r c
          rw [h3, Fl.lik, ← Real.exp_sub, ← Real.log_lt_iff_lt_exp hu]
          exact Iff.rfl
      rw [h1]
      tauto
    · constructor
      · rintro ⟨_, h, _⟩; exact absurd h hu
      · rintro ⟨h, _⟩; exact absurd h hu
  have hpos : 0 ≤ p.lik / Real.exp c := div_nonneg (Fl.lik_nonneg _) (Real.exp_pos _).le
  have hms : MeasurableSet {u | accepts p (Fl.fin c) u = true} :=
    measurable_accepts p _ (measurableSet_singleton true)
  rw [accProb, unif_eq, Measure.restrict_apply hms, h0, Real.volume_Ioo, sub_zero, ENNReal.toReal_ofReal (le_min zero_le_one hpos)]

/-- The probability that a slot in state `a` moves to `b`: propose `i` from `w`, accept it with probability
`α i`, and then be in state `g i`. -/
def jumpProb {S : Type} [DecidableEq S] (g : Fin N → S) (w α : Fin N → ℝ) (a b : S) : ℝ :=
  ∑ i, w i * (α i * (if g i = b then 1 else 0) + (1 - α i) * if a = b then 1 else 0)

/-- The probability that a slot at `a` moves to `b`: propose from `w`, accept `i` with probability
`α i`. -/
def slotProb (w α : Fin N → ℝ) (a b : Fin N) : ℝ :=
  ∑ i, w i * (α i * (if i = b then 1 else 0) + (1 - α i) * if a = b then 1 else 0)

theorem accepts_lintegral {S : Type} [DecidableEq S] (p c : Fl) (i a b : S) :
    ∫⁻ u, (if (if accepts p c u then i else a) = b then (1 : ℝ≥0∞) else 0) ∂unif =
      ENNReal.ofReal (accProb p c * (if i = b then 1 else 0) + (1 - accProb p c) * if a = b then 1 else 0) := by
  have hm : ∀ t, MeasurableSet {u : ℝ | accepts p c u = t} := fun t =>
    measurable_accepts p c (measurableSet_singleton t)
  have h1 : unif {u | accepts p c u = true} = ENNReal.ofReal (accProb p c) := by
    rw [accProb, ENNReal.ofReal_toReal (measure_ne_top _ _)]
  have h2 : unif {u | accepts p c u = false} = ENNReal.ofReal (1 - accProb p c) := by
    have h3 : {u | accepts p c u = false} = {u | accepts p c u = true}ᶜ := by
      ext u; simp
    rw [h3, prob_compl_eq_one_sub (hm true), h1, ENNReal.ofReal_sub _ (accProb_mem p c).1, ENNReal.ofReal_one]
  have h4 := lintegral_finite (P := unif) hm
    (fun t : Bool => if (if t then i else a) = b then (1 : ℝ≥0∞) else 0)
  have hp := accProb_mem p c
  rw [h4, Fintype.sum_bool, h1, h2]
  have h5 : 0 ≤ 1 - accProb p c := by linarith [hp.2]
  by_cases h6 : i = b <;> by_cases h7 : a = b
  · simp [h6, h7, ← ENNReal.ofReal_add hp.1 h5]
  · simp [h6, h7]
  · simp [h6, h7]
  · simp [h6, h7]

/-- One step of all slots: `a` are the states, `c` the carried log densities. -/
def slotMove {S : Type} [NeZero N] (rng : Rng K) (pf : Platform) (l : Fin N → Fl) (p : Fin n → Fin N → Fl)
    (g : Fin N → S) (c : Fin n → Fl) (kp ka : K) (a : Fin n → S) : Fin n → S := fun m =>
  if accepts (p m (multinomialIdx rng pf l n kp m)) (c m) (rng.uniform ka n m) then
    g (multinomialIdx rng pf l n kp m) else a m

theorem measurable_slotMove {S : Type} [MeasurableSpace S] [NeZero N] (h : IdealRng rng P) (pf : Platform)
    (l : Fin N → Fl) (p : Fin n → Fin N → Fl) (g : Fin N → S) (c : Fin n → Fl) (a : Fin n → S) :
    Measurable fun q : K × K => slotMove rng pf l p g c q.1 q.2 a := by
  refine measurable_pi_iff.mpr fun m => ?_
  have h1 : Measurable fun q : K × K => multinomialIdx rng pf l n q.1 m :=
    (measurable_pi_apply m).comp ((measurable_multinomialIdx h pf).comp
      (measurable_fst.prodMk (measurable_const (a := l))))
  have h2 : ∀ i, Measurable fun q : K × K => accepts (p m i) (c m) (rng.uniform q.2 n m) := fun i =>
    (measurable_accepts (p m i) (c m)).comp
      ((measurable_pi_apply m).comp ((h.uniform n).measurable.comp measurable_snd))
  have h3 : Measurable fun q : K × K => ((multinomialIdx rng pf l n q.1 m,
      fun i => accepts (p m i) (c m) (rng.uniform q.2 n m)) : Fin N × (Fin N → Bool)) :=
    h1.prodMk (measurable_pi_iff.mpr h2)
  have h4 : Measurable fun q : Fin N × (Fin N → Bool) => if q.2 q.1 then g q.1 else a m :=
    measurable_of_finite _
  exact h4.comp h3

theorem measurable_imhIdx [NeZero N] (h : IdealRng rng P) (pf : Platform) (l : Fin N → Fl)
    (p : Fin n → Fin N → Fl) (c : Fin n → Fl) (a : Fin n → Fin N) :
    Measurable fun q : K × K => imhIdx rng pf l p c q.1 q.2 a :=
  measurable_slotMove h pf l p id c a

/-- The law of one step. -/
theorem slotMove_law {S : Type} [DecidableEq S] [Fintype S] [MeasurableSpace S] [MeasurableSingletonClass S]
    [NeZero N] (h : IdealRng rng P) (pf : Platform) {l : Fin N → Fl} (hl : IsLogits l)
    (p : Fin n → Fin N → Fl) (g : Fin N → S) (c : Fin n → Fl) (a : Fin n → S) (G : (Fin n → S) → ℝ≥0∞) :
    ∫⁻ ka, ∫⁻ kp, G (slotMove rng pf l p g c kp ka a) ∂P ∂P =
      ∑ b, (∏ m, ENNReal.ofReal (jumpProb g (nw l) (fun i => accProb (p m i) (c m)) (a m) (b m))) * G b := by
  have := h.prob
  have h0 : ∀ ka, ∫⁻ kp, G (slotMove rng pf l p g c kp ka a) ∂P = ∑ d : Fin n → Fin N,
      (∏ m, ENNReal.ofReal (nw l (d m))) *
        G (fun m => if accepts (p m (d m)) (c m) (rng.uniform ka n m) then g (d m) else a m) := fun ka =>
    multinomialIdx_law h pf hl fun d =>
      G (fun m => if accepts (p m (d m)) (c m) (rng.uniform ka n m) then g (d m) else a m)
  simp only [h0]
  have hS : ∀ (d : Fin n → Fin N) (e : Fin n → S), MeasurableSet {us : Fin n → ℝ |
      (fun m => if accepts (p m (d m)) (c m) (us m) then g (d m) else a m) = e} := by
    intro d e
    have h1 : Measurable fun us : Fin n → ℝ => fun m => if accepts (p m (d m)) (c m) (us m) then g (d m) else a m := by
      refine measurable_pi_iff.mpr fun m => ?_
      have h2 : Measurable fun t : Bool => if t then g (d m) else a m := measurable_of_finite _
      exact h2.comp ((measurable_accepts _ _).comp (measurable_pi_apply m))
    exact h1 (measurableSet_singleton e)
  have hmeas : ∀ d : Fin n → Fin N, Measurable fun us : Fin n → ℝ =>
      G (fun m => if accepts (p m (d m)) (c m) (us m) then g (d m) else a m) := by
    intro d
    have h1 : Measurable fun us : Fin n → ℝ => fun m => if accepts (p m (d m)) (c m) (us m) then g (d m) else a m := by
      refine measurable_pi_iff.mpr fun m => ?_
      have h2 : Measurable fun t : Bool => if t then g (d m) else a m := measurable_of_finite _
      exact h2.comp ((measurable_accepts _ _).comp (measurable_pi_apply m))
    exact (measurable_of_finite G).comp h1
  rw [(h.uniform n).lintegral_comp (f := fun us => ∑ d : Fin n → Fin N,
      (∏ m, ENNReal.ofReal (nw l (d m))) *
        G (fun m => if accepts (p m (d m)) (c m) (us m) then g (d m) else a m))
    (Finset.measurable_sum _ fun d _ => (hmeas d).const_mul _),
    lintegral_finsetSum _ fun d _ => (hmeas d).const_mul _]
  have h3 : ∀ (d : Fin n → Fin N) (e : Fin n → S), (Measure.pi fun _ => unif) {us : Fin n → ℝ |
      (fun m => if accepts (p m (d m)) (c m) (us m) then g (d m) else a m) = e} =
      ∏ m, ∫⁻ u, (if (if accepts (p m (d m)) (c m) u then g (d m) else a m) = e m then (1 : ℝ≥0∞) else 0) ∂unif := by
    intro d e
    rw [← lintegral_pi_prod unif n, ← lintegral_indicator_one (hS d e)]
    · refine lintegral_congr fun us => ?_
      rw [indicator_apply]
      simp only [Finset.prod_ite_zero, Finset.prod_const_one, Pi.one_apply]
      refine if_congr ?_ rfl rfl
      simp [funext_iff]
    · intro m
      have h2 : Measurable fun t : Bool => if (if t then g (d m) else a m) = e m then (1 : ℝ≥0∞) else 0 :=
        measurable_of_finite _
      exact h2.comp (measurable_accepts _ _)
  have h4 : ∀ d : Fin n → Fin N, ∫⁻ us : Fin n → ℝ, (∏ m, ENNReal.ofReal (nw l (d m))) *
      G (fun m => if accepts (p m (d m)) (c m) (us m) then g (d m) else a m) ∂(Measure.pi fun _ => unif) =
      ∑ e, (∏ m, (ENNReal.ofReal (nw l (d m)) * ENNReal.ofReal (accProb (p m (d m)) (c m) *
        (if g (d m) = e m then 1 else 0) + (1 - accProb (p m (d m)) (c m)) * if a m = e m then 1 else 0))) * G e := by
    intro d
    rw [lintegral_const_mul _ (hmeas d), lintegral_finite (hS d), Finset.mul_sum]
    refine Finset.sum_congr rfl fun e _ => ?_
    rw [h3, Finset.prod_mul_distrib, ← mul_assoc]
    simp only [accepts_lintegral]
  simp only [h4]
  rw [Finset.sum_comm]
  refine Finset.sum_congr rfl fun e _ => ?_
  rw [← Finset.sum_mul]
  congr 1
  have h5 := Finset.prod_univ_sum (fun _ : Fin n => (Finset.univ : Finset (Fin N)))
    (fun m i => ENNReal.ofReal (nw l i) * ENNReal.ofReal (accProb (p m i) (c m) *
        (if g i = e m then 1 else 0) + (1 - accProb (p m i) (c m)) * if a m = e m then 1 else 0))
  rw [Fintype.piFinset_univ] at h5
  rw [← h5]
  refine Finset.prod_congr rfl fun m _ => ?_
  have h7 : ∀ i, 0 ≤ accProb (p m i) (c m) * (if g i = e m then 1 else 0) +
      (1 - accProb (p m i) (c m)) * if a m = e m then 1 else 0 := by
    intro i
    have := accProb_mem (p m i) (c m)
    refine add_nonneg (mul_nonneg this.1 (by split_ifs <;> norm_num))
      (mul_nonneg (by linarith [this.2]) (by split_ifs <;> norm_num))
  rw [jumpProb, ENNReal.ofReal_sum_of_nonneg]
  · refine Finset.sum_congr rfl fun i _ => ?_
    rw [ENNReal.ofReal_mul (nw_nonneg l i)]
  · intro i _
    exact mul_nonneg (nw_nonneg l i) (h7 i)

theorem imhIdx_law [NeZero N] (h : IdealRng rng P) (pf : Platform) {l : Fin N → Fl} (hl : IsLogits l)
    (p : Fin n → Fin N → Fl) (c : Fin n → Fl) (a : Fin n → Fin N) (G : (Fin n → Fin N) → ℝ≥0∞) :
    ∫⁻ ka, ∫⁻ kp, G (imhIdx rng pf l p c kp ka a) ∂P ∂P =
      ∑ b, (∏ m, ENNReal.ofReal (slotProb (nw l) (fun i => accProb (p m i) (c m)) (a m) (b m))) * G b :=
  slotMove_law h pf hl p id c a G

/-! ### Invariance -/

/-- Detailed balance of one slot. -/
theorem slotProb_invariant {w f q : Fin N → ℝ} {α : Fin N → Fin N → ℝ} (hf : ∀ i, 0 ≤ f i)
    (hw : ∑ i, w i = 1) (hq : ∀ i, q i = w i * f i / ∑ j, w j * f j)
    (hα : ∀ i j, 0 < f i → α i j = min 1 (f j / f i)) (b : Fin N) :
    ∑ i, q i * slotProb w (α i) i b = q b := by
  obtain ⟨Z, hZ⟩ : ∃ Z, Z = ∑ j, w j * f j := ⟨_, rfl⟩
  have hM : ∀ i j, q i * (w j * α i j) = w i * w j * min (f i) (f j) / Z := by
    intro i j
    rcases (hf i).eq_or_lt with h0 | h0
    · rw [hq, ← h0, min_eq_left (hf j)]; simp
    · rw [hα i j h0, hq, ← hZ]
      have : f i * min 1 (f j / f i) = min (f i) (f j) := by
        rw [mul_min_of_nonneg _ _ h0.le, mul_one, mul_div_cancel₀ _ h0.ne']
      calc w i * f i / Z * (w j * min 1 (f j / f i)) = w i * w j * (f i * min 1 (f j / f i)) / Z := by ring
        _ = _ := by rw [this]
  have h1 : ∀ i, q i * slotProb w (α i) i b = q i * (w b * α i b) +
      if i = b then q b - ∑ j, q b * (w j * α b j) else 0 := by
    intro i
    rw [slotProb]
    simp only [mul_add, Finset.sum_add_distrib]
    congr 1
    · rw [Finset.sum_eq_single b]
      · simp
      · intro j _ hj; simp [hj]
      · simp
    · split_ifs with h2
      · subst h2
        simp only [mul_one, mul_sub, Finset.sum_sub_distrib, ← Finset.mul_sum, hw]
      · simp
  simp only [h1, Finset.sum_add_distrib, Finset.sum_ite_eq', Finset.mem_univ, if_true, hM]
  have h2 : ∑ i, w i * w b * min (f i) (f b) / Z = ∑ j, w b * w j * min (f b) (f j) / Z :=
    Finset.sum_congr rfl fun i _ => by rw [min_comm, mul_comm (w i)]
  rw [h2]; ring

theorem backwardProb_nw {x0 : Fin N → X} {l : Fin N → Fl} (hl : IsLogits l) (ld : X → X → Fl) (x1 : X)
    (j : Fin N) : backwardProb x0 l ld x1 j =
      nw l j * (ld (x0 j) x1).lik / ∑ i, nw l i * (ld (x0 i) x1).lik := by
  have hS := sum_lik_pos hl
  simp only [backwardProb, nw]
  obtain ⟨S, hS'⟩ : ∃ S, S = ∑ i, (l i).lik := ⟨_, rfl⟩
  rw [← hS'] at hS ⊢
  have : ∑ i, (l i).lik / S * (ld (x0 i) x1).lik = (∑ i, (l i).lik * (ld (x0 i) x1).lik) / S := by
    rw [Finset.sum_div]
    exact Finset.sum_congr rfl fun i _ => by ring
  rw [this, div_mul_eq_mul_div, div_div_div_cancel_right₀ hS.ne']

theorem backwardProb_nonneg (x0 : Fin N → X) (l : Fin N → Fl) (ld : X → X → Fl) (x1 : X) (j : Fin N) :
    0 ≤ backwardProb x0 l ld x1 j :=
  div_nonneg (mul_nonneg (Fl.lik_nonneg _) (Fl.lik_nonneg _))
    (Finset.sum_nonneg fun _ _ => mul_nonneg (Fl.lik_nonneg _) (Fl.lik_nonneg _))

theorem CanSample.logits {x0 : Fin N → X} {l : Fin N → Fl} {ld : X → X → Fl} {x1 : X}
    (h : CanSample x0 l ld x1) : IsLogits l := ⟨h.1, h.2.2.imp fun _ hj => hj.1⟩

/-- The product of the backward probabilities of all slots. -/
def backwardJoint (x0 : Fin N → X) (l : Fin N → Fl) (ld : X → X → Fl) (x1 : Fin n → X) (a : Fin n → Fin N) :
    ℝ≥0∞ := ∏ m, ENNReal.ofReal (backwardProb x0 l ld (x1 m) (a m))

theorem imhMove_invariant [NeZero N] (h : IdealRng rng P) (pf : Platform) {x0 : Fin N → X} {x1 : Fin n → X}
    {l : Fin N → Fl} {ld : X → X → Fl} (hl : IsLogits l) (hs : ∀ m, CanSample x0 l ld (x1 m))
    (G : (Fin n → Fin N) → ℝ≥0∞) :
    ∑ a, backwardJoint x0 l ld x1 a * ∫⁻ ka, ∫⁻ kp, G (imhMove rng pf x0 x1 l ld kp ka a) ∂P ∂P =
      ∑ b, backwardJoint x0 l ld x1 b * G b := by
  classical
  have h1 : ∀ a, ∫⁻ ka, ∫⁻ kp, G (imhMove rng pf x0 x1 l ld kp ka a) ∂P ∂P =
      ∑ b, (∏ m, ENNReal.ofReal (slotProb (nw l) (fun i => accProb (ld (x0 i) (x1 m)) (ld (x0 (a m)) (x1 m)))
        (a m) (b m))) * G b := fun a => imhIdx_law h pf hl _ _ a G
  simp only [h1, Finset.mul_sum]
  rw [Finset.sum_comm]
  refine Finset.sum_congr rfl fun b _ => ?_
  simp only [← mul_assoc, ← Finset.sum_mul]
  congr 1
  simp only [backwardJoint, ← Finset.prod_mul_distrib]
  have h5 := Finset.prod_univ_sum (fun _ : Fin n => (Finset.univ : Finset (Fin N)))
    (fun m i => ENNReal.ofReal (backwardProb x0 l ld (x1 m) i) * ENNReal.ofReal (slotProb (nw l)
      (fun j => accProb (ld (x0 j) (x1 m)) (ld (x0 i) (x1 m))) i (b m)))
  rw [Fintype.piFinset_univ] at h5
  rw [← h5]
  refine Finset.prod_congr rfl fun m _ => ?_
  have h6 := slotProb_invariant (w := nw l) (f := fun i => (ld (x0 i) (x1 m)).lik)
    (q := backwardProb x0 l ld (x1 m)) (α := fun i j => accProb (ld (x0 j) (x1 m)) (ld (x0 i) (x1 m)))
    (fun i => Fl.lik_nonneg _) (nw_sum hl) (backwardProb_nw hl ld (x1 m)) (fun i j hi => by
      have hi' := (hs m).2.1 i
      obtain ⟨p, hp⟩ : ∃ p, p = ld (x0 i) (x1 m) := ⟨_, rfl⟩
      simp only [← hp] at hi hi' ⊢
      cases p with
      | nan => exact absurd hi' (by simp [Fl.IsLog])
      | pinf => exact absurd hi' (by simp [Fl.IsLog])
      | ninf => simp [Fl.lik] at hi
      | fin r => exact accProb_eq ((hs m).2.1 j) r) (b m)
  rw [← h6, ENNReal.ofReal_sum_of_nonneg]
  · refine Finset.sum_congr rfl fun i _ => ?_
    rw [ENNReal.ofReal_mul (backwardProb_nonneg ..)]
  · intro i _
    refine mul_nonneg (backwardProb_nonneg ..) (Finset.sum_nonneg fun j _ => mul_nonneg (nw_nonneg l j) ?_)
    have := accProb_mem (ld (x0 j) (x1 m)) (ld (x0 i) (x1 m))
    exact add_nonneg (mul_nonneg this.1 (by split_ifs <;> norm_num))
      (mul_nonneg (by linarith [this.2]) (by split_ifs <;> norm_num))

theorem measurable_runIdx {A : Type} [Fintype A] [MeasurableSpace A] [MeasurableSingletonClass A]
    {st : K → K → A → A} (hst : ∀ a, Measurable fun q : K × K => st q.1 q.2 a) (a : A) (N' : ℕ) :
    ∀ (t : ℕ) (h : t * 2 ≤ N'), Measurable fun keys : Fin N' → K => runIdx st a t N' h keys
  | 0, _ => measurable_const
  | t + 1, h => by
    have h1 := measurable_runIdx hst a N' t (by omega)
    have h2 : Measurable fun q : (K × K) × A => st q.1.1 q.1.2 q.2 := by
      exact measurable_from_prod_countable_left fun b => hst b
    have h3 : Measurable fun keys : Fin N' → K => ((keys ⟨t * 2, by omega⟩, keys ⟨t * 2 + 1, by omega⟩),
        runIdx st a t N' (by omega) keys) :=
      ((measurable_pi_apply _).prodMk (measurable_pi_apply _)).prodMk h1
    exact h2.comp h3

/-- The expectation after `t` steps, if one step maps the weights `w t` to `w (t + 1)`. The initial state is
drawn from the weights `w₀`. -/
theorem runIdx_chain {A : Type} [Fintype A] [MeasurableSpace A] [MeasurableSingletonClass A]
    [IsProbabilityMeasure P] {st : K → K → A → A} (hst : ∀ a, Measurable fun q : K × K => st q.1 q.2 a)
    {w₀ : A → ℝ≥0∞} {w : ℕ → A → ℝ≥0∞} (hw0 : w 0 = w₀)
    (hw : ∀ t, ∀ G : A → ℝ≥0∞, ∑ a, w t a * ∫⁻ ka, ∫⁻ kp, G (st kp ka a) ∂P ∂P = ∑ a, w (t + 1) a * G a) :
    ∀ (t N' : ℕ) (hN : N' = t * 2) (G : A → ℝ≥0∞),
      ∑ a, w₀ a * ∫⁻ keys : Fin N' → K, G (runIdx st a t N' hN.ge keys) ∂(Measure.pi fun _ => P) =
        ∑ a, w t a * G a
  | 0, N', hN, G => by simp [runIdx, hw0]
  | t + 1, N', hN, G => by
    obtain ⟨m, rfl⟩ : ∃ m, N' = m + 1 + 1 := ⟨t * 2, by omega⟩
    have hm : m = t * 2 := by omega
    have hG : Measurable G := measurable_of_finite G
    have h1 : ∀ a, ∫⁻ keys : Fin (m + 1 + 1) → K, G (runIdx st a (t + 1) (m + 1 + 1) hN.ge keys)
        ∂(Measure.pi fun _ => P) = ∫⁻ ka, ∫⁻ kp, ∫⁻ y, G (st kp ka (runIdx st a t m hm.ge y))
          ∂(Measure.pi fun _ : Fin m => P) ∂P ∂P := by
      intro a
      have h2 : Measurable fun keys : Fin (m + 1 + 1) → K => G (runIdx st a (t + 1) (m + 1 + 1) hN.ge keys) :=
        hG.comp (measurable_runIdx hst a _ _ _)
      rw [lintegral_pi_snoc P h2]
      refine lintegral_congr fun ka => ?_
      have h3 : ∀ y : Fin (m + 1) → K, runIdx st a (t + 1) (m + 1 + 1) hN.ge (Fin.snoc (α := fun _ => K) y ka) =
          st (y (Fin.last m)) ka (runIdx st a t m hm.ge fun i => y i.castSucc) := by
        intro y
        rw [runIdx]
        congr 1
        · have : (⟨t * 2, by omega⟩ : Fin (m + 1 + 1)) = (Fin.last m).castSucc := by
            ext; simp [hm]
          rw [this, Fin.snoc_castSucc]
        · have : (⟨t * 2 + 1, by omega⟩ : Fin (m + 1 + 1)) = Fin.last (m + 1) := by
            ext; simp [hm]
          rw [this, Fin.snoc_last]
        · rw [runIdx_castLE st a _ (show m ≤ m + 1 + 1 by omega) t hm.ge]
          congr 1
          funext i
          have : (i.castLE (by omega) : Fin (m + 1 + 1)) = i.castSucc.castSucc := by ext; rfl
          rw [this, Fin.snoc_castSucc]
      simp only [h3]
      have h4 : Measurable fun y : Fin (m + 1) → K =>
          G (st (y (Fin.last m)) ka (runIdx st a t m hm.ge fun i => y i.castSucc)) := by
        have h5 : Measurable fun q : (K × K) × A => st q.1.1 q.1.2 q.2 :=
          measurable_from_prod_countable_left fun b => hst b
        have h6 : Measurable fun y : Fin (m + 1) → K => runIdx st a t m hm.ge fun i => y i.castSucc :=
          (measurable_runIdx hst a m t hm.ge).comp (measurable_pi_iff.mpr fun i => measurable_pi_apply _)
        have h7 : Measurable fun y : Fin (m + 1) → K => ((y (Fin.last m), ka),
            runIdx st a t m hm.ge fun i => y i.castSucc) :=
          ((measurable_pi_apply _).prodMk measurable_const).prodMk h6
        exact hG.comp (h5.comp h7)
      rw [lintegral_pi_snoc P h4]
      simp only [Fin.snoc_last, Fin.snoc_castSucc]
    have hk : ∀ a ka, Measurable fun kp => ∫⁻ y, G (st kp ka (runIdx st a t m hm.ge y))
        ∂(Measure.pi fun _ : Fin m => P) := by
      intro a ka
      have h5 : ∀ kp, ∫⁻ y, G (st kp ka (runIdx st a t m hm.ge y)) ∂(Measure.pi fun _ : Fin m => P) = _ :=
        fun kp => lintegral_finite (fun i => measurable_runIdx hst a m t hm.ge (measurableSet_singleton i))
          fun b => G (st kp ka b)
      simp only [h5]
      refine Finset.measurable_sum _ fun b _ => Measurable.const_mul ?_ _
      exact hG.comp ((hst b).comp (measurable_id.prodMk measurable_const))
    have hk2 : ∀ a, Measurable fun ka => ∫⁻ kp, ∫⁻ y, G (st kp ka (runIdx st a t m hm.ge y))
        ∂(Measure.pi fun _ : Fin m => P) ∂P := by
      intro a
      have h5 : Measurable fun q : K × K => ∫⁻ y, G (st q.2 q.1 (runIdx st a t m hm.ge y))
        ∂(Measure.pi fun _ : Fin m => P) := by
        have h5 : ∀ q : K × K, ∫⁻ y, G (st q.2 q.1 (runIdx st a t m hm.ge y))
            ∂(Measure.pi fun _ : Fin m => P) = _ :=
          fun q => lintegral_finite (fun i => measurable_runIdx hst a m t hm.ge (measurableSet_singleton i))
            fun b => G (st q.2 q.1 b)
        simp only [h5]
        refine Finset.measurable_sum _ fun b _ => Measurable.const_mul ?_ _
        exact hG.comp ((hst b).comp (measurable_snd.prodMk measurable_fst))
      exact h5.lintegral_prod_right'
    have hk3 : ∀ b ka, Measurable fun kp => G (st kp ka b) := fun b ka =>
      hG.comp ((hst b).comp (measurable_id.prodMk measurable_const))
    have hk4 : ∀ b, Measurable fun ka => ∫⁻ kp, G (st kp ka b) ∂P := by
      intro b
      have h5 : Measurable fun q : K × K => G (st q.2 q.1 b) :=
        hG.comp ((hst b).comp (measurable_snd.prodMk measurable_fst))
      exact h5.lintegral_prod_right'
    calc ∑ a, w₀ a * ∫⁻ keys : Fin (m + 1 + 1) → K, G (runIdx st a (t + 1) (m + 1 + 1) hN.ge keys)
          ∂(Measure.pi fun _ => P)
        = ∫⁻ ka, ∫⁻ kp, ∑ a, w₀ a * ∫⁻ y, G (st kp ka (runIdx st a t m hm.ge y))
          ∂(Measure.pi fun _ : Fin m => P) ∂P ∂P := by
          simp only [h1]
          have h6 : ∀ ka, ∫⁻ kp, ∑ a, w₀ a * ∫⁻ y, G (st kp ka (runIdx st a t m hm.ge y))
              ∂(Measure.pi fun _ : Fin m => P) ∂P = ∑ a, w₀ a * ∫⁻ kp, ∫⁻ y,
                G (st kp ka (runIdx st a t m hm.ge y)) ∂(Measure.pi fun _ : Fin m => P) ∂P := by
            intro ka
            rw [lintegral_finsetSum _ fun a _ => (hk a ka).const_mul _]
            exact Finset.sum_congr rfl fun a _ => lintegral_const_mul _ (hk a ka)
          simp only [h6]
          rw [lintegral_finsetSum _ fun a _ => (hk2 a).const_mul _]
          exact Finset.sum_congr rfl fun a _ => (lintegral_const_mul _ (hk2 a)).symm
      _ = ∫⁻ ka, ∫⁻ kp, ∑ b, w t b * G (st kp ka b) ∂P ∂P := by
          refine lintegral_congr fun ka => lintegral_congr fun kp => ?_
          exact runIdx_chain hst hw0 hw t m hm fun b => G (st kp ka b)
      _ = ∑ b, w t b * ∫⁻ ka, ∫⁻ kp, G (st kp ka b) ∂P ∂P := by
          have h6 : ∀ ka, ∫⁻ kp, ∑ b, w t b * G (st kp ka b) ∂P = ∑ b, w t b * ∫⁻ kp, G (st kp ka b) ∂P := by
            intro ka
            rw [lintegral_finsetSum _ fun b _ => (hk3 b ka).const_mul _]
            exact Finset.sum_congr rfl fun b _ => lintegral_const_mul _ (hk3 b ka)
          simp only [h6]
          rw [lintegral_finsetSum _ fun a _ => (hk4 a).const_mul _]
          exact Finset.sum_congr rfl fun a _ => lintegral_const_mul _ (hk4 a)
      _ = _ := hw t G

/-- If one step leaves the weights `w` invariant then so do `t` steps. -/
theorem runIdx_invariant {A : Type} [Fintype A] [MeasurableSpace A] [MeasurableSingletonClass A]
    [IsProbabilityMeasure P] {st : K → K → A → A} (hst : ∀ a, Measurable fun q : K × K => st q.1 q.2 a)
    {w : A → ℝ≥0∞} (hw : ∀ G : A → ℝ≥0∞, ∑ a, w a * ∫⁻ ka, ∫⁻ kp, G (st kp ka a) ∂P ∂P = ∑ a, w a * G a)
    (t N' : ℕ) (hN : N' = t * 2) (G : A → ℝ≥0∞) :
    ∑ a, w a * ∫⁻ keys : Fin N' → K, G (runIdx st a t N' hN.ge keys) ∂(Measure.pi fun _ => P) =
      ∑ a, w a * G a :=
  runIdx_chain (w := fun _ => w) hst rfl (fun _ => hw) t N' hN G

end law

end

end Cuthbert.SMC
