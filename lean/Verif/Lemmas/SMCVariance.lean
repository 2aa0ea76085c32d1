import Verif.Lemmas.SecondMoment

/-!
# Second moments of the particle filter's estimates
-/

namespace Cuthbert.SMC
open MeasureTheory Set Resampling
open scoped ENNReal

noncomputable section

variable {K X Inp : Type} {N : ℕ}

/-- Resampling adds at most `κ` to the relative variance: the second moment of a resampled average exceeds the
square of the average by at most `κ` times the squared bound of the function, and the new weights are at most as
uneven as `κ` allows. -/
structure Concentrates [MeasurableSpace K] (P : Measure K) (I : K → (Fin N → Fl) → Fin N → Fin N)
    (L : K → (Fin N → Fl) → Fin N → Fl) (κ : ℝ≥0∞) : Prop where
  second : ∀ l, IsLogits l → ∀ (H : Fin N → ℝ≥0∞) (C : ℝ≥0∞), (∀ i, H i ≤ C) →
    ∫⁻ k, (∑ m, ENNReal.ofReal (nw (L k l) m) * H (I k l m)) ^ 2 ∂P ≤
      (∑ i, ENNReal.ofReal (nw l i) * H i) ^ 2 + κ * C ^ 2
  weights : ∀ l, IsLogits l → ∀ k, ∑ m, ENNReal.ofReal (nw (L k l) m) ^ 2 ≤ κ

/-- The average over the particles after the first step of a function of the initial key of the ancestor and of the
propagation key. -/
def firstAvg (rng : Prng K) (I : K → (Fin N → Fl) → Fin N → Fin N) (L : K → (Fin N → Fl) → Fin N → Fl)
    (h : K × K → ℝ≥0∞) (k : K) : ℝ≥0∞ :=
  ∑ m : Fin N, ENNReal.ofReal (nw (L (rng.nth k (N + 1) 0) fun _ => 0) m) *
    h (rng.nth k N (I (rng.nth k (N + 1) 0) (fun _ => 0) m), rng.nth k (N + 1) m.succ)

/-- How close averages after the first step are to expectations with fresh keys. -/
structure FirstStep [MeasurableSpace K] (rng : Prng K) (P : Measure K) (I : K → (Fin N → Fl) → Fin N → Fin N)
    (L : K → (Fin N → Fl) → Fin N → Fl) (δ : ℝ≥0∞) : Prop where
  second : ∀ h : K × K → ℝ≥0∞, Measurable h → ∀ C, (∀ q, h q ≤ C) →
    ∫⁻ k, firstAvg rng I L h k ^ 2 ∂P ≤ (∫⁻ q, h q ∂P.prod P) ^ 2 + δ * C ^ 2
  mean : ∀ h : K × K → ℝ≥0∞, Measurable h → ∀ C, (∀ q, h q ≤ C) →
    ∫⁻ q, h q ∂P.prod P ≤ (∫⁻ k, firstAvg rng I L h k ∂P) + δ * C

theorem FirstStep.mono [MeasurableSpace K] {rng : Prng K} {P : Measure K} {I : K → (Fin N → Fl) → Fin N → Fin N}
    {L : K → (Fin N → Fl) → Fin N → Fl} {δ δ' : ℝ≥0∞} (h : FirstStep rng P I L δ) (hle : δ ≤ δ') :
    FirstStep rng P I L δ' where
  second f hf C hC := (h.second f hf C hC).trans (by gcongr)
  mean f hf C hC := (h.mean f hf C hC).trans (by gcongr)

section law

variable [MeasurableSpace K] [MeasurableSpace X] {P : Measure K} [IsProbabilityMeasure P]
  {mdl : FKModel K X Inp} {I : K → (Fin N → Fl) → Fin N → Fin N}
  {L : K → (Fin N → Fl) → Fin N → Fl} {u : Inp} {κ : ℝ≥0∞}

/-- The weighted new particle, as a function of the old particle and the key. -/
def weighted (mdl : FKModel K X Inp) (u : Inp) (f : X → ℝ≥0∞) (x : X) (k : K) : ℝ≥0∞ :=
  ENNReal.ofReal (mdl.logPotential x (mdl.propagate k x u) u).lik * f (mdl.propagate k x u)

omit [MeasurableSpace K] [MeasurableSpace X] in
theorem weighted_le {B c : ℝ≥0∞} (hB : ∀ x x', ENNReal.ofReal (mdl.logPotential x x' u).lik ≤ B)
    {f : X → ℝ≥0∞} (hf : ∀ x, f x ≤ c) (x : X) (k : K) : weighted mdl u f x k ≤ B * c :=
  mul_le_mul' (hB _ _) (hf _)

omit [MeasurableSpace X] in
theorem fkQ_le {B c : ℝ≥0∞} (hB : ∀ x x', ENNReal.ofReal (mdl.logPotential x x' u).lik ≤ B)
    {f : X → ℝ≥0∞} (hf : ∀ x, f x ≤ c) (x : X) : fkQ P mdl u f x ≤ B * c := by
  refine (lintegral_mono fun k => weighted_le hB hf x k).trans_eq ?_
  rw [lintegral_const, measure_univ, mul_one]

omit [MeasurableSpace X] in
theorem fkG_le {B c : ℝ≥0∞} {f : X → ℝ≥0∞} (hf : ∀ x, f x ≤ c) : ∀ (us : List Inp) (t : ℕ), t ≤ us.length →
    (∀ u ∈ us, ∀ x x', ENNReal.ofReal (mdl.logPotential x x' u).lik ≤ B) → ∀ x, fkG P mdl f us t x ≤ B ^ t * c
  | [], t, ht, _, x => by
    obtain rfl : t = 0 := by simpa using ht
    simpa [fkG] using hf x
  | _ :: _, 0, _, _, x => by simpa [fkG] using hf x
  | u :: us, t + 1, ht, hB, x => by
    rw [fkG, pow_succ', mul_assoc]
    exact fkQ_le (hB u (by simp)) (fkG_le hf us t (by simpa using ht) fun u' h' => hB u' (by simp [h'])) x

omit [MeasurableSpace K] [MeasurableSpace X] in
theorem est_le {c : ℝ≥0∞} {f : X → ℝ≥0∞} (hf : ∀ x, f x ≤ c) (cc : Core X N) :
    est f cc ≤ ENNReal.ofReal cc.2.2.lik * c := by
  unfold est
  refine mul_le_mul_right ?_ _
  calc ∑ i, ENNReal.ofReal (nw cc.2.1 i) * f (cc.1 i) ≤ ∑ i, ENNReal.ofReal (nw cc.2.1 i) * c :=
        Finset.sum_le_sum fun i _ => mul_le_mul_right (hf _) _
    _ = ENNReal.ofReal (∑ i, nw cc.2.1 i) * c := by
        rw [← Finset.sum_mul, ENNReal.ofReal_sum_of_nonneg fun i _ => nw_nonneg _ i]
    _ ≤ 1 * c := by
        refine mul_le_mul_left ?_ _
        rw [← ENNReal.ofReal_one]
        refine ENNReal.ofReal_le_ofReal ?_
        unfold nw
        rw [← Finset.sum_div]
        exact div_self_le_one _
    _ = c := one_mul c

omit [MeasurableSpace K] [MeasurableSpace X] in
theorem est_one {d : Prop} {cc : Core X N} (hc : Good d cc) :
    est (fun _ => 1) cc = ENNReal.ofReal cc.2.2.lik := by
  unfold est
  rcases hc.alive with h | h
  · simp only [mul_one]
    rw [← ENNReal.ofReal_sum_of_nonneg fun i _ => nw_nonneg _ i, nw_sum h, ENNReal.ofReal_one, mul_one]
  · simp [h.2, Fl.lik]

omit [MeasurableSpace K] [MeasurableSpace X] in
/-- The evidence grows at most by the bound of the potential. -/
theorem logZ_step_le {d : Prop} {B : ℝ≥0∞} (hu : ∀ x x', (mdl.logPotential x x' u).IsLog)
    (hB : ∀ x x', ENNReal.ofReal (mdl.logPotential x x' u).lik ≤ B) (ks : Fin (N + 1) → K) {cc : Core X N}
    (hz : cc.2.2.IsLog) (hl : IsLogits (L (ks 0) cc.2.1)) (hg : Good d (coreStep mdl I L u ks cc)) :
    ENNReal.ofReal (coreStep mdl I L u ks cc).2.2.lik ≤ ENNReal.ofReal cc.2.2.lik * B := by
  rw [← est_one hg, est_coreStep hu _ ks hz hl]
  refine mul_le_mul_right ?_ _
  calc _ ≤ ∑ m, ENNReal.ofReal (nw (L (ks 0) cc.2.1) m) * B :=
        Finset.sum_le_sum fun i _ => mul_le_mul_right (by rw [mul_one]; exact hB _ _) _
    _ = B := by
        rw [← Finset.sum_mul, ← ENNReal.ofReal_sum_of_nonneg fun i _ => nw_nonneg _ i, nw_sum hl,
          ENNReal.ofReal_one, one_mul]

/-- The second moment of a weighted sum over resampled and propagated particles. -/
theorem lintegral_sq_resampled (hR : UnbiasedWeights P I L) (hK : Concentrates P I L κ) {l : Fin N → Fl}
    (hl : IsLogits l) {w : Fin N → K → ℝ≥0∞} (hw : ∀ i, Measurable (w i)) {C : ℝ≥0∞} (hC : ∀ i k, w i k ≤ C) :
    ∫⁻ ks, (∑ m : Fin N, ENNReal.ofReal (nw (L (ks 0) l) m) * w (I (ks 0) l m) (ks m.succ)) ^ 2
        ∂(Measure.pi fun _ : Fin (N + 1) => P) ≤
      (∑ i, ENNReal.ofReal (nw l i) * ∫⁻ k, w i k ∂P) ^ 2 + 2 * κ * C ^ 2 := by
  have hidx : Measurable fun k => I k l := hR.measurable_idx.comp (measurable_id.prodMk measurable_const)
  have hlog : Measurable fun k => L k l := hR.measurable_logits.comp (measurable_id.prodMk measurable_const)
  have hnw : ∀ m, Measurable fun k => ENNReal.ofReal (nw (L k l) m) := fun m =>
    ENNReal.measurable_ofReal.comp ((measurable_nw m).comp hlog)
  have hw2 : Measurable fun q : Fin N × K => w q.1 q.2 := measurable_from_prod_countable_right hw
  have hterm : Measurable fun ks : Fin (N + 1) → K =>
      (∑ m : Fin N, ENNReal.ofReal (nw (L (ks 0) l) m) * w (I (ks 0) l m) (ks m.succ)) ^ 2 := by
    refine (Finset.measurable_sum _ fun m _ => ?_).pow_const 2
    have h1 : Measurable fun ks : Fin (N + 1) → K => (I (ks 0) l m, ks m.succ) :=
      (((measurable_pi_apply m).comp hidx).comp (measurable_pi_apply 0)).prodMk (measurable_pi_apply m.succ)
    exact ((hnw m).comp (measurable_pi_apply 0)).mul (hw2.comp h1)
  rw [lintegral_pi_cons P hterm]
  simp only [Fin.cons_zero, Fin.cons_succ]
  have h1 : ∀ k, ∫⁻ y : Fin N → K, (∑ m : Fin N, ENNReal.ofReal (nw (L k l) m) * w (I k l m) (y m)) ^ 2
      ∂(Measure.pi fun _ => P) ≤
      (∑ m, ENNReal.ofReal (nw (L k l) m) * ∫⁻ k', w (I k l m) k' ∂P) ^ 2 + C ^ 2 * κ := by
    intro k
    refine (lintegral_sq_indep P (fun m => ENNReal.ofReal (nw (L k l) m)) (g := fun m => w (I k l m))
      (fun m => hw _) (fun m x => hC _ x)).trans ?_
    gcongr
    exact hK.weights l hl k
  refine (lintegral_mono h1).trans ?_
  rw [lintegral_add_right _ measurable_const, lintegral_const, measure_univ, mul_one]
  have h2 := hK.second l hl (fun i => ∫⁻ k', w i k' ∂P) C fun i =>
    (lintegral_mono fun k => hC i k).trans_eq (by rw [lintegral_const, measure_univ, mul_one])
  calc _ ≤ (∑ i, ENNReal.ofReal (nw l i) * ∫⁻ k, w i k ∂P) ^ 2 + κ * C ^ 2 + C ^ 2 * κ := by gcongr
    _ = _ := by ring

/-- One step. -/
theorem lintegral_sq_coreStep (hR : UnbiasedWeights P I L) (hK : Concentrates P I L κ) (hu : mdl.Regular u)
    {B c : ℝ≥0∞} (hB : ∀ x x', ENNReal.ofReal (mdl.logPotential x x' u).lik ≤ B) {f : X → ℝ≥0∞} (hf : Measurable f)
    (hfc : ∀ x, f x ≤ c) {cc : Core X N} (hc : Good (RevivesDead L) cc) :
    ∫⁻ ks, est f (coreStep mdl I L u ks cc) ^ 2 ∂(Measure.pi fun _ => P) ≤
      est (fkQ P mdl u f) cc ^ 2 + 2 * κ * (ENNReal.ofReal cc.2.2.lik * (B * c)) ^ 2 := by
  simp only [est_coreStep hu.isLog f _ hc.logZ (hc.isLogits_L hR.isLogits _)]
  rcases hc.alive with hl | hl
  swap
  · simp [hl.2, Fl.lik]
  have hw : ∀ i, Measurable fun k => weighted mdl u f (cc.1 i) k := fun i =>
    (measurable_weighted hu hf).comp (measurable_const.prodMk measurable_id)
  simp only [mul_pow]
  rw [lintegral_const_mul']
  swap
  · exact ENNReal.pow_ne_top ENNReal.ofReal_ne_top
  have h1 := lintegral_sq_resampled hR hK hl (w := fun i k => weighted mdl u f (cc.1 i) k) hw
    (C := B * c) fun i k => weighted_le hB hfc _ k
  calc _ ≤ ENNReal.ofReal cc.2.2.lik ^ 2 * ((∑ i, ENNReal.ofReal (nw cc.2.1 i) *
          ∫⁻ k, weighted mdl u f (cc.1 i) k ∂P) ^ 2 + 2 * κ * (B * c) ^ 2) := mul_le_mul_right h1 _
    _ = _ := by
        unfold est fkQ weighted
        ring

variable {rng : Rng K} (h : IdealRng rng P)

include h

/-- Several steps. -/
theorem lintegral_sq_coreAt (hR : UnbiasedWeights P I L) (hK : Concentrates P I L κ) {B c : ℝ≥0∞} {f : X → ℝ≥0∞}
    (hf : Measurable f) (hfc : ∀ x, f x ≤ c) :
    ∀ (us : List Inp) (t : ℕ) (cc : Core X N), t ≤ us.length → (∀ u ∈ us, mdl.Regular u) →
    (∀ u ∈ us, ∀ x x', ENNReal.ofReal (mdl.logPotential x x' u).lik ≤ B) →
    (RevivesDead L ∨ ∀ u ∈ us, ∀ x x', (mdl.logPotential x x' u).IsFin) → Good (RevivesDead L) cc →
    ∫⁻ k, ∫⁻ keys, est f (coreAt rng.toPrng mdl I L us t k cc keys) ^ 2 ∂(Measure.pi fun _ => P) ∂P ≤
      est (fkG P mdl f us t) cc ^ 2 + 2 * κ * t * (ENNReal.ofReal cc.2.2.lik * (B ^ t * c)) ^ 2
  | [], t, cc, _, _, _, _, _ => by simp [coreAt, fkG]
  | _ :: _, 0, cc, _, _, _, _, _ => by simp [coreAt, fkG]
  | u :: us, t + 1, cc, ht, hu, hB, hd, hc => by
    have hur := hu u (by simp)
    have hu' : ∀ u' ∈ us, mdl.Regular u' := fun u' h' => hu u' (by simp [h'])
    have hB' : ∀ u' ∈ us, ∀ x x', ENNReal.ofReal (mdl.logPotential x x' u').lik ≤ B :=
      fun u' h' => hB u' (by simp [h'])
    have hd' : RevivesDead L ∨ ∀ u ∈ us, ∀ x x', (mdl.logPotential x x' u).IsFin :=
      hd.imp_right fun h1 u' h' => h1 u' (by simp [h'])
    have ht' : t ≤ us.length := by simpa using ht
    have hd0 : RevivesDead L ∨ ∀ x x', (mdl.logPotential x x' u).IsFin :=
      hd.imp_right fun h1 => h1 u (by simp)
    simp only [coreAt, fkG]
    have hl : ∀ k, IsLogits (L (rng.nth k (N + 1) 0) cc.2.1) := fun k => hc.isLogits_L hR.isLogits _
    have h1 : ∀ k, ∫⁻ keys : Fin (us.length + 1) → K, est f (coreAt rng.toPrng mdl I L us t (keys 0)
          (coreStep mdl I L u (rng.nth k (N + 1)) cc) (Fin.tail keys)) ^ 2 ∂(Measure.pi fun _ => P) ≤
        est (fkG P mdl f us t) (coreStep mdl I L u (rng.nth k (N + 1)) cc) ^ 2 +
          2 * κ * t * (ENNReal.ofReal cc.2.2.lik * (B ^ (t + 1) * c)) ^ 2 := by
      intro k
      have hg : Good (RevivesDead L) (coreStep mdl I L u (rng.nth k (N + 1)) cc) :=
        Good.step hc.logZ hur.isLog _ (hl k) hd0
      have ih := lintegral_sq_coreAt hR hK hf hfc us t _ ht' hu' hB' hd' hg
      rw [lintegral_pi_cons P]
      · simp only [Fin.cons_zero, Fin.tail_cons]
        refine ih.trans ?_
        refine add_le_add le_rfl ?_
        have hz := logZ_step_le hur.isLog (hB u (by simp)) (rng.nth k (N + 1)) hc.logZ (hl k) hg
        calc _ ≤ 2 * κ * t * (ENNReal.ofReal cc.2.2.lik * B * (B ^ t * c)) ^ 2 := by gcongr
          _ = _ := by ring
      · have h2 : Measurable fun keys : Fin (us.length + 1) → K => Fin.tail keys :=
          measurable_pi_iff.mpr fun i => measurable_pi_apply i.succ
        exact ((measurable_est hf).comp ((measurable_coreAt h hR us t hu').comp
          ((measurable_pi_apply 0).prodMk (measurable_const.prodMk h2)))).pow_const 2
    have hg := measurable_fkG (P := P) hf us t hu'
    have h3 : Measurable fun ks => est (fkG P mdl f us t) (coreStep mdl I L u ks cc) ^ 2 :=
      ((measurable_est hg).comp ((measurable_coreStep hR hur).comp
        (measurable_id.prodMk measurable_const))).pow_const 2
    refine (lintegral_mono h1).trans ?_
    rw [lintegral_add_right _ measurable_const, lintegral_const, measure_univ, mul_one,
      (h.split (N + 1)).lintegral_comp h3]
    have h4 := lintegral_sq_coreStep hR hK hur (hB u (by simp)) hg (fkG_le hfc us t ht' hB') hc
    calc _ ≤ est (fkQ P mdl u (fkG P mdl f us t)) cc ^ 2 +
            2 * κ * (ENNReal.ofReal cc.2.2.lik * (B * (B ^ t * c))) ^ 2 +
            2 * κ * t * (ENNReal.ofReal cc.2.2.lik * (B ^ (t + 1) * c)) ^ 2 := by gcongr
      _ = _ := by push_cast; ring

omit h in
/-- The initial particles. -/
theorem lintegral_sq_coreInit [NeZero N] {u0 : Inp} (h0 : Measurable fun k => mdl.initSample k u0)
    {f : X → ℝ≥0∞} (hf : Measurable f) {c : ℝ≥0∞} (hfc : ∀ x, f x ≤ c) :
    ∫⁻ a, est f (coreInit mdl u0 a : Core X N) ^ 2 ∂(Measure.pi fun _ => P) ≤
      (∫⁻ x, f x ∂mdl.init P u0) ^ 2 + (N : ℝ≥0∞)⁻¹ * c ^ 2 := by
  have hN : ENNReal.ofReal (N : ℝ)⁻¹ = (N : ℝ≥0∞)⁻¹ := by
    rw [ENNReal.ofReal_inv_of_pos (by exact_mod_cast NeZero.pos N), ENNReal.ofReal_natCast]
  have h1 : ∀ a, est f (coreInit mdl u0 a : Core X N) =
      ∑ m : Fin N, (N : ℝ≥0∞)⁻¹ * f (mdl.initSample (a m) u0) := by
    intro a
    simp only [est, coreInit, Fl.zero_def, Fl.lik, Real.exp_zero, ENNReal.ofReal_one, one_mul]
    simp only [← Fl.zero_def, nw_zero, hN]
  simp only [h1]
  refine (lintegral_sq_indep P (fun _ => (N : ℝ≥0∞)⁻¹) (g := fun _ k => f (mdl.initSample k u0))
    (fun _ => hf.comp h0) (fun _ x => hfc _)).trans_eq ?_
  rw [FKModel.init, lintegral_map hf h0]
  simp only [Finset.sum_const, Finset.card_univ, Fintype.card_fin, nsmul_eq_mul]
  have h2 : (N : ℝ≥0∞) * (N : ℝ≥0∞)⁻¹ = 1 :=
    ENNReal.mul_inv_cancel (by exact_mod_cast NeZero.ne N) (by simp)
  rw [sq (N : ℝ≥0∞)⁻¹, ← mul_assoc, ← mul_assoc (N : ℝ≥0∞), h2, one_mul, one_mul, mul_comm (c ^ 2)]

omit h [MeasurableSpace K] [MeasurableSpace X] [IsProbabilityMeasure P] in
theorem est_first [NeZero N] (hL : ∀ k l, IsLogits l → IsLogits (L k l)) {u0 : Inp}
    (hu : ∀ x x', (mdl.logPotential x x' u).IsLog) (g : X → ℝ≥0∞) (k : K) :
    est g (coreStep mdl I L u (rng.nth k (N + 1)) (coreInit mdl u0 (rng.nth k N))) =
      firstAvg rng.toPrng I L (fun q => weighted mdl u g (mdl.initSample q.1 u0) q.2) k := by
  rw [est_coreStep hu _ _ (good_coreInit (d := True) u0 _).logZ (hL _ _ isLogits_zero)]
  simp only [coreInit, Fl.zero_def, Fl.lik, Real.exp_zero, ENNReal.ofReal_one, one_mul]
  rfl

/-- The second moment of the estimate at time `t` of a run. -/
theorem lintegral_sq_run [NeZero N] (hR : UnbiasedWeights P I L) (hK : Concentrates P I L κ) {δ : ℝ≥0∞}
    (hF : FirstStep rng.toPrng P I L δ) (hδ : (N : ℝ≥0∞)⁻¹ ≤ δ) {u0 : Inp}
    (h0 : Measurable fun k => mdl.initSample k u0) {B c : ℝ≥0∞} {f : X → ℝ≥0∞} (hf : Measurable f)
    (hfc : ∀ x, f x ≤ c) (us : List Inp) (t : ℕ) (ht : t ≤ us.length) (hu : ∀ u' ∈ us, mdl.Regular u')
    (hB : ∀ u ∈ us, ∀ x x', ENNReal.ofReal (mdl.logPotential x x' u).lik ≤ B)
    (hd : RevivesDead L ∨ ∀ u' ∈ us, ∀ x x', (mdl.logPotential x x' u').IsFin) :
    ∫⁻ k, ∫⁻ keys, est f (coreAt rng.toPrng mdl I L us t k (coreInit mdl u0 (rng.nth k N)) keys) ^ 2
        ∂(Measure.pi fun _ => P) ∂P ≤
      (∫⁻ x, fkG P mdl f us t x ∂mdl.init P u0) ^ 2 + (δ + 2 * κ * t) * (B ^ t * c) ^ 2 := by
  have hgood : ∀ a : Fin N → K, Good (RevivesDead L) (coreInit mdl u0 a) := fun a =>
    good_coreInit u0 a
  have hzero : ∫⁻ k, est f (coreInit mdl u0 (rng.nth k N) : Core X N) ^ 2 ∂P ≤
      (∫⁻ x, f x ∂mdl.init P u0) ^ 2 + δ * c ^ 2 := by
    refine (((h.split N).lintegral_comp (f := fun a => est f (coreInit mdl u0 a : Core X N) ^ 2)
      (((measurable_est hf).comp (measurable_coreInit h0)).pow_const 2)).trans_le
      (lintegral_sq_coreInit h0 hf hfc)).trans ?_
    gcongr
  match us, t, ht with
  | [], t, ht =>
    obtain rfl : t = 0 := by simpa using ht
    simpa [coreAt, fkG] using hzero
  | _ :: _, 0, _ => simpa [coreAt, fkG] using hzero
  | u :: us, t + 1, ht =>
    have hur := hu u (by simp)
    have hu' : ∀ u' ∈ us, mdl.Regular u' := fun u' h' => hu u' (by simp [h'])
    have hB' : ∀ u' ∈ us, ∀ x x', ENNReal.ofReal (mdl.logPotential x x' u').lik ≤ B :=
      fun u' h' => hB u' (by simp [h'])
    have hd' : RevivesDead L ∨ ∀ u ∈ us, ∀ x x', (mdl.logPotential x x' u).IsFin :=
      hd.imp_right fun h1 u' h' => h1 u' (by simp [h'])
    have hd0 : RevivesDead L ∨ ∀ x x', (mdl.logPotential x x' u).IsFin :=
      hd.imp_right fun h1 => h1 u (by simp)
    have ht' : t ≤ us.length := by simpa using ht
    have hg := measurable_fkG (P := P) hf us t hu'
    have hgc := fkG_le (P := P) hfc us t ht' hB'
    simp only [coreAt, fkG]
    have h1 : ∀ k, ∫⁻ keys : Fin (us.length + 1) → K, est f (coreAt rng.toPrng mdl I L us t (keys 0)
          (coreStep mdl I L u (rng.nth k (N + 1)) (coreInit mdl u0 (rng.nth k N))) (Fin.tail keys)) ^ 2
            ∂(Measure.pi fun _ => P) ≤
        firstAvg rng.toPrng I L (fun q => weighted mdl u (fkG P mdl f us t) (mdl.initSample q.1 u0) q.2) k ^ 2 +
          2 * κ * t * (B ^ (t + 1) * c) ^ 2 := by
      intro k
      have hgd : Good (RevivesDead L) (coreStep mdl I L u (rng.nth k (N + 1)) (coreInit mdl u0 (rng.nth k N))) :=
        Good.step (hgood _).logZ hur.isLog _ ((hgood _).isLogits_L hR.isLogits _) hd0
      have ih := lintegral_sq_coreAt h hR hK hf hfc us t _ ht' hu' hB' hd' hgd
      rw [lintegral_pi_cons P]
      · simp only [Fin.cons_zero, Fin.tail_cons]
        refine ih.trans ?_
        rw [est_first hR.isLogits hur.isLog]
        refine add_le_add le_rfl ?_
        have hz := logZ_step_le hur.isLog (hB u (by simp)) (rng.nth k (N + 1)) (hgood _).logZ
          ((hgood (rng.nth k N)).isLogits_L hR.isLogits _) hgd
        rw [show ENNReal.ofReal (coreInit mdl u0 (rng.nth k N) : Core X N).2.2.lik = 1 by
          simp [coreInit, Fl.zero_def, Fl.lik], one_mul] at hz
        calc _ ≤ 2 * κ * t * (B * (B ^ t * c)) ^ 2 := by gcongr
          _ = _ := by ring
      · have h2 : Measurable fun keys : Fin (us.length + 1) → K => Fin.tail keys :=
          measurable_pi_iff.mpr fun i => measurable_pi_apply i.succ
        exact ((measurable_est hf).comp ((measurable_coreAt h hR us t hu').comp
          ((measurable_pi_apply 0).prodMk (measurable_const.prodMk h2)))).pow_const 2
    have hw : Measurable fun q : K × K => weighted mdl u (fkG P mdl f us t) (mdl.initSample q.1 u0) q.2 :=
      (measurable_weighted hur hg).comp ((h0.comp measurable_fst).prodMk measurable_snd)
    have h5 := hF.second _ hw (B * (B ^ t * c)) fun q => weighted_le (hB u (by simp)) hgc _ _
    have h6 : ∫⁻ q, weighted mdl u (fkG P mdl f us t) (mdl.initSample q.1 u0) q.2 ∂P.prod P =
        ∫⁻ x, fkQ P mdl u (fkG P mdl f us t) x ∂mdl.init P u0 := by
      rw [FKModel.init, lintegral_map (measurable_fkQ hur hg) h0, lintegral_prod _ hw.aemeasurable]
      rfl
    rw [h6] at h5
    refine (lintegral_mono h1).trans ?_
    rw [lintegral_add_right _ measurable_const, lintegral_const, measure_univ, mul_one]
    calc _ ≤ (∫⁻ x, fkQ P mdl u (fkG P mdl f us t) x ∂mdl.init P u0) ^ 2 + δ * (B * (B ^ t * c)) ^ 2 +
            2 * κ * t * (B ^ (t + 1) * c) ^ 2 := by gcongr
      _ = (∫⁻ x, fkQ P mdl u (fkG P mdl f us t) x ∂mdl.init P u0) ^ 2 +
            (δ + 2 * κ * t) * (B ^ (t + 1) * c) ^ 2 := by ring
      _ ≤ _ := by
          refine add_le_add le_rfl (mul_le_mul_left ?_ _)
          push_cast
          gcongr
          exact le_self_add

/-- The expectation of the estimate at time `t` of a run, from below. -/
theorem le_lintegral_run [NeZero N] (hR : UnbiasedWeights P I L) {δ : ℝ≥0∞}
    (hF : FirstStep rng.toPrng P I L δ) {u0 : Inp}
    (h0 : Measurable fun k => mdl.initSample k u0) {B c : ℝ≥0∞} {f : X → ℝ≥0∞} (hf : Measurable f)
    (hfc : ∀ x, f x ≤ c) (us : List Inp) (t : ℕ) (ht : t ≤ us.length) (hu : ∀ u' ∈ us, mdl.Regular u')
    (hB : ∀ u ∈ us, ∀ x x', ENNReal.ofReal (mdl.logPotential x x' u).lik ≤ B)
    (hd : RevivesDead L ∨ ∀ u' ∈ us, ∀ x x', (mdl.logPotential x x' u').IsFin) :
    ∫⁻ x, fkG P mdl f us t x ∂mdl.init P u0 ≤
      (∫⁻ k, ∫⁻ keys, est f (coreAt rng.toPrng mdl I L us t k (coreInit mdl u0 (rng.nth k N)) keys)
        ∂(Measure.pi fun _ => P) ∂P) + δ * (B ^ t * c) := by
  have hgood : ∀ a : Fin N → K, Good (RevivesDead L) (coreInit mdl u0 a) := fun a =>
    good_coreInit u0 a
  have hzero : ∫⁻ k, est f (coreInit mdl u0 (rng.nth k N) : Core X N) ∂P =
      ∫⁻ x, f x ∂mdl.init P u0 := by
    rw [← lintegral_coreInit (N := N) h0 hf]
    exact (h.split N).lintegral_comp (f := fun a => est f (coreInit mdl u0 a : Core X N))
      ((measurable_est hf).comp (measurable_coreInit h0))
  match us, t, ht with
  | [], t, ht =>
    obtain rfl : t = 0 := by simpa using ht
    simp [coreAt, fkG, hzero]
  | _ :: _, 0, _ => simp [coreAt, fkG, hzero]
  | u :: us, t + 1, ht =>
    have hur := hu u (by simp)
    have hu' : ∀ u' ∈ us, mdl.Regular u' := fun u' h' => hu u' (by simp [h'])
    have hB' : ∀ u' ∈ us, ∀ x x', ENNReal.ofReal (mdl.logPotential x x' u').lik ≤ B :=
      fun u' h' => hB u' (by simp [h'])
    have ht' : t ≤ us.length := by simpa using ht
    have hg := measurable_fkG (P := P) hf us t hu'
    have hgc := fkG_le (P := P) hfc us t ht' hB'
    have h1 : ∫⁻ k, ∫⁻ keys, est f (coreAt rng.toPrng mdl I L (u :: us) (t + 1) k
          (coreInit mdl u0 (rng.nth k N)) keys) ∂(Measure.pi fun _ => P) ∂P =
        ∫⁻ k, firstAvg rng.toPrng I L (fun q => weighted mdl u (fkG P mdl f us t) (mdl.initSample q.1 u0) q.2) k ∂P :=
      lintegral_congr fun k => (lintegral_coreAt_succ h hR hf u us t
        (coreInit mdl u0 (rng.nth k N)) k ht' hu hd (hgood _)).trans (est_first hR.isLogits hur.isLog _ k)
    have hw : Measurable fun q : K × K => weighted mdl u (fkG P mdl f us t) (mdl.initSample q.1 u0) q.2 :=
      (measurable_weighted hur hg).comp ((h0.comp measurable_fst).prodMk measurable_snd)
    have h5 := hF.mean _ hw (B * (B ^ t * c)) fun q => weighted_le (hB u (by simp)) hgc _ _
    have h6 : ∫⁻ q, weighted mdl u (fkG P mdl f us t) (mdl.initSample q.1 u0) q.2 ∂P.prod P =
        ∫⁻ x, fkQ P mdl u (fkG P mdl f us t) x ∂mdl.init P u0 := by
      rw [FKModel.init, lintegral_map (measurable_fkQ hur hg) h0, lintegral_prod _ hw.aemeasurable]
      rfl
    rw [h6] at h5
    rw [h1, fkG, pow_succ', mul_assoc]
    exact h5

end law

end

end Cuthbert.SMC
