import Verif.Lemmas.SMCUniform

/-!
# The relative variance of the evidence when the model forgets
-/

namespace Cuthbert.SMC
open MeasureTheory Set Resampling
open scoped ENNReal NNReal

noncomputable section

variable {K X Inp : Type} {N : ℕ}

section law

variable [MeasurableSpace K] [MeasurableSpace X] {P : Measure K} [IsProbabilityMeasure P] {mdl : FKModel K X Inp}
  {I : K → (Fin N → Fl) → Fin N → Fin N} {L : K → (Fin N → Fl) → Fin N → Fl} {u : Inp} {r b : ℝ≥0} {κ δ : ℝ≥0∞}

/-- One step multiplies the second moment by at most `1 + 2 κ (b r)²`. -/
theorem sq_coreStep_rel (hR : UnbiasedWeights P I L) (hK : Concentrates P I L κ) (hu : mdl.Regular u)
    {h : X → ℝ≥0∞} (mh : Measurable h) {q : ℝ≥0∞}
    (hw : ∀ x k y, weighted mdl u h x k ≤ q * fkQ P mdl u h y) {cc : Core X N} (hc : Good (RevivesDead L) cc) :
    ∫⁻ ks, est h (coreStep mdl I L u ks cc) ^ 2 ∂(Measure.pi fun _ => P) ≤
      (1 + 2 * κ * q ^ 2) * est (fkQ P mdl u h) cc ^ 2 := by
  simp only [est_coreStep hu.isLog h _ hc.logZ (hc.isLogits_L hR.isLogits _)]
  rcases hc.alive with hl | hl
  swap
  · simp [hl.2, Fl.lik]
  have hm : ∀ i, Measurable fun k => weighted mdl u h (cc.1 i) k := fun i =>
    (measurable_weighted hu mh).comp (measurable_const.prodMk measurable_id)
  simp only [mul_pow]
  rw [lintegral_const_mul' _ _ (ENNReal.pow_ne_top ENNReal.ofReal_ne_top)]
  have h1 := lintegral_sq_resampled hR hK hl (w := fun i k => weighted mdl u h (cc.1 i) k) hm
    (C := q * avgE (fkQ P mdl u h) cc) fun i k => by
      have h2 := avgE_mono (hw (cc.1 i) k) cc
      rw [avgE_const hl] at h2
      refine h2.trans_eq ?_
      have h3 := avgE_add_mul (fun _ => 0) (fkQ P mdl u h) q cc
      simp only [zero_add] at h3
      rw [h3]
      simp [avgE]
  calc _ ≤ ENNReal.ofReal cc.2.2.lik ^ 2 * ((∑ i, ENNReal.ofReal (nw cc.2.1 i) *
          ∫⁻ k, weighted mdl u h (cc.1 i) k ∂P) ^ 2 + 2 * κ * (q * avgE (fkQ P mdl u h) cc) ^ 2) :=
        mul_le_mul_right h1 _
    _ = ENNReal.ofReal cc.2.2.lik ^ 2 * (avgE (fkQ P mdl u h) cc ^ 2 + 2 * κ * (q * avgE (fkQ P mdl u h) cc) ^ 2) := rfl
    _ = _ := by
        rw [est_eq_avgE]
        ring

variable {rng : Rng K} (h : IdealRng rng P)

include h

/-- Several steps. -/
theorem sq_coreAt_rel (hR : UnbiasedWeights P I L) (hK : Concentrates P I L κ) (hr : 1 ≤ r) :
    ∀ (us : List Inp) (t : ℕ) (cc : Core X N), t ≤ us.length → (∀ u ∈ us, mdl.Regular u) →
    (∀ u ∈ us, ForgetsQ P mdl u r b) →
    (RevivesDead L ∨ ∀ u ∈ us, ∀ x x', (mdl.logPotential x x' u).IsFin) → Good (RevivesDead L) cc →
    ∫⁻ k, ∫⁻ keys, est (fun _ => 1) (coreAt rng.toPrng mdl I L us t k cc keys) ^ 2 ∂(Measure.pi fun _ => P) ∂P ≤
      (1 + 2 * κ * (b * r) ^ 2) ^ t * est (fkG P mdl (fun _ => 1) us t) cc ^ 2
  | [], t, cc, ht, _, _, _, _ => by
    obtain rfl : t = 0 := by simpa using ht
    simp [coreAt, fkG]
  | _ :: _, 0, cc, _, _, _, _, _ => by simp [coreAt, fkG]
  | u :: us, t + 1, cc, ht, hu, hq, hd, hc => by
    have hur := hu u (by simp)
    have hu' : ∀ u' ∈ us, mdl.Regular u' := fun u' h' => hu u' (by simp [h'])
    have hq' : ∀ u' ∈ us, ForgetsQ P mdl u' r b := fun u' h' => hq u' (by simp [h'])
    have hd' : RevivesDead L ∨ ∀ u ∈ us, ∀ x x', (mdl.logPotential x x' u).IsFin :=
      hd.imp_right fun h1 u' h' => h1 u' (by simp [h'])
    have ht' : t ≤ us.length := by simpa using ht
    have hd0 : RevivesDead L ∨ ∀ x x', (mdl.logPotential x x' u).IsFin :=
      hd.imp_right fun h1 => h1 u (by simp)
    have mf : Measurable fun _ : X => (1 : ℝ≥0∞) := measurable_const
    simp only [coreAt, fkG]
    have hl : ∀ k, IsLogits (L (rng.nth k (N + 1) 0) cc.2.1) := fun k => hc.isLogits_L hR.isLogits _
    have h1 : ∀ k, ∫⁻ keys : Fin (us.length + 1) → K, est (fun _ => 1) (coreAt rng.toPrng mdl I L us t (keys 0)
          (coreStep mdl I L u (rng.nth k (N + 1)) cc) (Fin.tail keys)) ^ 2 ∂(Measure.pi fun _ => P) ≤
        (1 + 2 * κ * (b * r) ^ 2) ^ t *
          est (fkG P mdl (fun _ => 1) us t) (coreStep mdl I L u (rng.nth k (N + 1)) cc) ^ 2 := by
      intro k
      have hg : Good (RevivesDead L) (coreStep mdl I L u (rng.nth k (N + 1)) cc) :=
        Good.step hc.logZ hur.isLog _ (hl k) hd0
      have ih := sq_coreAt_rel hR hK hr us t _ ht' hu' hq' hd' hg
      rw [lintegral_pi_cons P]
      · simp only [Fin.cons_zero, Fin.tail_cons]
        exact ih
      · have h2 : Measurable fun keys : Fin (us.length + 1) → K => Fin.tail keys :=
          measurable_pi_iff.mpr fun i => measurable_pi_apply i.succ
        exact ((measurable_est mf).comp ((measurable_coreAt h hR us t hu').comp
          ((measurable_pi_apply 0).prodMk (measurable_const.prodMk h2)))).pow_const 2
    have hg := measurable_fkG (P := P) mf us t hu'
    have h3 : Measurable fun ks => est (fkG P mdl (fun _ => 1) us t) (coreStep mdl I L u ks cc) ^ 2 :=
      ((measurable_est hg).comp ((measurable_coreStep hR hur).comp
        (measurable_id.prodMk measurable_const))).pow_const 2
    have h3' : Measurable fun k =>
        est (fkG P mdl (fun _ => 1) us t) (coreStep mdl I L u (rng.nth k (N + 1)) cc) ^ 2 :=
      h3.comp (measurable_nthAll h (N + 1))
    refine (lintegral_mono h1).trans ?_
    rw [lintegral_const_mul _ h3', (h.split (N + 1)).lintegral_comp h3]
    have h4 := sq_coreStep_rel hR hK hur hg (q := b * r)
      (weighted_fkG_le hr us t hu' hq' hur (hq u (by simp))) hc
    calc _ ≤ (1 + 2 * κ * (b * r) ^ 2) ^ t *
            ((1 + 2 * κ * (b * r) ^ 2) * est (fkQ P mdl u (fkG P mdl (fun _ => 1) us t)) cc ^ 2) := by gcongr
      _ = _ := by ring

/-- The second moment of the evidence of a run, and its mean from below, relative to the evidence. -/
theorem evidence_moments [NeZero N] (hR : UnbiasedWeights P I L) (hK : Concentrates P I L κ)
    (hF : FirstStep rng.toPrng P I L δ) {u0 : Inp} (h0 : Measurable fun k => mdl.initSample k u0) (hr : 1 ≤ r)
    (us : List Inp) (t : ℕ) (ht : t ≤ us.length) (hu : ∀ u' ∈ us, mdl.Regular u')
    (hq : ∀ u ∈ us, ForgetsQ P mdl u r b)
    (hd : RevivesDead L ∨ ∀ u' ∈ us, ∀ x x', (mdl.logPotential x x' u').IsFin) {g : ℝ≥0∞}
    (hgd : g = ∫⁻ x, fkG P mdl (fun _ => 1) us t x ∂mdl.init P u0) :
    ∫⁻ k, ∫⁻ keys, est (fun _ => 1) (coreAt rng.toPrng mdl I L us t k (coreInit mdl u0 (rng.nth k N)) keys) ^ 2
        ∂(Measure.pi fun _ => P) ∂P ≤
      (1 + δ * (b * r) ^ 2) * (1 + 2 * κ * (b * r) ^ 2) ^ t * g ^ 2 ∧
    g ≤ (∫⁻ k, ∫⁻ keys, est (fun _ => 1) (coreAt rng.toPrng mdl I L us t k (coreInit mdl u0 (rng.nth k N)) keys)
        ∂(Measure.pi fun _ => P) ∂P) + δ * (b * r * g) ∧ g ≠ 0 ∧ g ≠ ⊤ := by
  have hgood : ∀ a : Fin N → K, Good (RevivesDead L) (coreInit mdl u0 a) := fun a => good_coreInit u0 a
  have hp : IsProbabilityMeasure (mdl.init P u0) := Measure.isProbabilityMeasure_map h0.aemeasurable
  have mf : Measurable fun _ : X => (1 : ℝ≥0∞) := measurable_const
  have hone : ∀ a, est (fun _ => 1) (coreInit mdl u0 a : Core X N) = 1 := fun a => by
    rw [est_one (hgood a)]
    simp [coreInit, Fl.zero_def, Fl.lik]
  have hzero : ∀ g : ℝ≥0∞, g = 1 → ∫⁻ k, est (fun _ => 1) (coreInit mdl u0 (rng.nth k N) : Core X N) ^ 2 ∂P ≤
      (1 + δ * (b * r) ^ 2) * g ^ 2 ∧
      g ≤ (∫⁻ k, est (fun _ => 1) (coreInit mdl u0 (rng.nth k N) : Core X N) ∂P) + δ * (b * r * g) ∧ g ≠ 0 ∧ g ≠ ⊤ := by
    rintro g rfl
    simp only [hone]
    simp
  match us, t, ht with
  | [], t, ht =>
    obtain rfl : t = 0 := by simpa using ht
    simpa [coreAt] using hzero g (by rw [hgd]; simp [fkG])
  | _ :: _, 0, _ => simpa [coreAt] using hzero g (by rw [hgd]; simp [fkG])
  | u :: us, t + 1, ht =>
    have hur := hu u (by simp)
    have hu' : ∀ u' ∈ us, mdl.Regular u' := fun u' h' => hu u' (by simp [h'])
    have hq' : ∀ u' ∈ us, ForgetsQ P mdl u' r b := fun u' h' => hq u' (by simp [h'])
    have hqu := hq u (by simp)
    have hd' : RevivesDead L ∨ ∀ u ∈ us, ∀ x x', (mdl.logPotential x x' u).IsFin :=
      hd.imp_right fun h1 u' h' => h1 u' (by simp [h'])
    have hd0 : RevivesDead L ∨ ∀ x x', (mdl.logPotential x x' u).IsFin :=
      hd.imp_right fun h1 => h1 u (by simp)
    have ht' : t ≤ us.length := by simpa using ht
    have mg := measurable_fkG (P := P) mf us t hu'
    have hw : Measurable fun q : K × K =>
        weighted mdl u (fkG P mdl (fun _ => 1) us t) (mdl.initSample q.1 u0) q.2 :=
      (measurable_weighted hur mg).comp ((h0.comp measurable_fst).prodMk measurable_snd)
    have h6 : ∫⁻ q, weighted mdl u (fkG P mdl (fun _ => 1) us t) (mdl.initSample q.1 u0) q.2 ∂P.prod P = g := by
      rw [hgd, FKModel.init, fkG, lintegral_map (measurable_fkQ hur mg) h0, lintegral_prod _ hw.aemeasurable]
      rfl
    have hC : ∀ q : K × K, weighted mdl u (fkG P mdl (fun _ => 1) us t) (mdl.initSample q.1 u0) q.2 ≤ b * r * g := by
      intro q
      calc _ = ∫⁻ _, weighted mdl u (fkG P mdl (fun _ => 1) us t) (mdl.initSample q.1 u0) q.2 ∂mdl.init P u0 := by
            rw [lintegral_const, measure_univ, mul_one]
        _ ≤ ∫⁻ y, b * r * fkQ P mdl u (fkG P mdl (fun _ => 1) us t) y ∂mdl.init P u0 :=
            lintegral_mono fun y => weighted_fkG_le hr us t hu' hq' hur hqu _ _ y
        _ = _ := by
            rw [lintegral_const_mul' _ _ (ENNReal.mul_ne_top ENNReal.coe_ne_top ENNReal.coe_ne_top), hgd]
            rfl
    have hpf := fkG_one_pos_finite hr (u :: us) (t + 1) hu hq
    have hle := fkG_one_le hr (u :: us) (t + 1) hu hq
    obtain ⟨x0⟩ : Nonempty X := by
      obtain ⟨k⟩ : Nonempty K := by
        by_contra hne
        have : IsEmpty K := not_nonempty_iff.mp hne
        have h1 := measure_univ (μ := P)
        rw [Set.univ_eq_empty_iff.mpr this, measure_empty] at h1
        exact zero_ne_one h1
      exact ⟨mdl.initSample k u0⟩
    have hgt : g ≠ ⊤ := by
      rw [hgd]
      refine ne_top_of_le_ne_top (b := r * fkG P mdl (fun _ => 1) (u :: us) (t + 1) x0)
        (ENNReal.mul_ne_top ENNReal.coe_ne_top (hpf x0).2) ?_
      refine (lintegral_mono fun x => hle x x0).trans_eq ?_
      rw [lintegral_const, measure_univ, mul_one]
    have hg0 : g ≠ 0 := by
      intro h1
      have h2 : fkG P mdl (fun _ => 1) (u :: us) (t + 1) x0 ≤ r * g := by
        calc _ = ∫⁻ _, fkG P mdl (fun _ => 1) (u :: us) (t + 1) x0 ∂mdl.init P u0 := by
              rw [lintegral_const, measure_univ, mul_one]
          _ ≤ ∫⁻ y, r * fkG P mdl (fun _ => 1) (u :: us) (t + 1) y ∂mdl.init P u0 :=
              lintegral_mono fun y => hle x0 y
          _ = _ := by rw [lintegral_const_mul' _ _ ENNReal.coe_ne_top, hgd]
      rw [h1, mul_zero, nonpos_iff_eq_zero] at h2
      exact (hpf x0).1 h2
    have h5 := hF.second _ hw (b * r * g) hC
    have h7 := hF.mean _ hw (b * r * g) hC
    rw [h6] at h5 h7
    refine ⟨?_, ?_, hg0, hgt⟩
    · have h1 : ∀ k, ∫⁻ keys : Fin (us.length + 1) → K, est (fun _ => 1) (coreAt rng.toPrng mdl I L us t (keys 0)
            (coreStep mdl I L u (rng.nth k (N + 1)) (coreInit mdl u0 (rng.nth k N))) (Fin.tail keys)) ^ 2
              ∂(Measure.pi fun _ => P) ≤
          (1 + 2 * κ * (b * r) ^ 2) ^ t * firstAvg rng.toPrng I L
            (fun q => weighted mdl u (fkG P mdl (fun _ => 1) us t) (mdl.initSample q.1 u0) q.2) k ^ 2 := by
        intro k
        have hgd : Good (RevivesDead L) (coreStep mdl I L u (rng.nth k (N + 1)) (coreInit mdl u0 (rng.nth k N))) :=
          Good.step (hgood _).logZ hur.isLog _ ((hgood _).isLogits_L hR.isLogits _) hd0
        have ih := sq_coreAt_rel h hR hK hr us t _ ht' hu' hq' hd' hgd
        rw [lintegral_pi_cons P]
        · simp only [Fin.cons_zero, Fin.tail_cons]
          rw [← est_first hR.isLogits hur.isLog]
          exact ih
        · have h2 : Measurable fun keys : Fin (us.length + 1) → K => Fin.tail keys :=
            measurable_pi_iff.mpr fun i => measurable_pi_apply i.succ
          exact ((measurable_est mf).comp ((measurable_coreAt h hR us t hu').comp
            ((measurable_pi_apply 0).prodMk (measurable_const.prodMk h2)))).pow_const 2
      simp only [coreAt]
      refine (lintegral_mono h1).trans ?_
      have hm : Measurable fun k => firstAvg rng.toPrng I L
          (fun q => weighted mdl u (fkG P mdl (fun _ => 1) us t) (mdl.initSample q.1 u0) q.2) k ^ 2 := by
        simp only [← est_first (rng := rng) hR.isLogits hur.isLog]
        exact ((measurable_est mg).comp ((measurable_coreStep hR hur).comp ((measurable_nthAll h (N + 1)).prodMk
          ((measurable_coreInit h0).comp (measurable_nthAll h N))))).pow_const 2
      rw [lintegral_const_mul _ hm]
      calc _ ≤ (1 + 2 * κ * (b * r) ^ 2) ^ t * (g ^ 2 + δ * (b * r * g) ^ 2) := by gcongr
        _ = (1 + δ * (b * r) ^ 2) * (1 + 2 * κ * (b * r) ^ 2) ^ t * g ^ 2 := by ring
        _ ≤ _ := by
            refine mul_le_mul_left (mul_le_mul_right ?_ _) _
            exact pow_le_pow_right₀ le_self_add (Nat.le_succ t)
    · have h1 : ∫⁻ k, ∫⁻ keys, est (fun _ => 1) (coreAt rng.toPrng mdl I L (u :: us) (t + 1) k
            (coreInit mdl u0 (rng.nth k N)) keys) ∂(Measure.pi fun _ => P) ∂P =
          ∫⁻ k, firstAvg rng.toPrng I L
            (fun q => weighted mdl u (fkG P mdl (fun _ => 1) us t) (mdl.initSample q.1 u0) q.2) k ∂P :=
        lintegral_congr fun k => (lintegral_coreAt_succ h hR mf u us t
          (coreInit mdl u0 (rng.nth k N)) k ht' hu hd (hgood _)).trans (est_first hR.isLogits hur.isLog _ k)
      rw [h1]
      exact h7

end law

end

end Cuthbert.SMC
