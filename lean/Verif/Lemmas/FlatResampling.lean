import Verif.Props.ParticleSmoother
import Verif.Lemmas.SMCResamplers
import Verif.Lemmas.SMCRun
import Verif.Lemmas.SMCLaw
import Verif.Lemmas.SortedUniforms

/-!
# Resampled indices are locally constant functions of the weights

For almost every key: the indices jump only where a draw equals a cumulative weight.
-/

namespace Cuthbert.Resampling
open MeasureTheory Set Spec Filter
open scoped ENNReal Topology Nat

noncomputable section

variable {K : Type} {N n : ℕ}

/-- For almost every key, small changes of the weights do not change the indices. -/
def Flat [MeasurableSpace K] (P : Measure K) (I : K → (Fin N → Fl) → Fin N → Fin N) : Prop :=
  ∃ G : Set (K × (Fin N → Fl)), MeasurableSet G ∧ (∀ l, ∀ᵐ k ∂P, (k, l) ∈ G) ∧
    ∀ k l, (k, l) ∈ G → IsLogits l → ∃ ε > 0, ∀ l', IsLogits l' → (∀ i, |nw l' i - nw l i| < ε) → I k l' = I k l

theorem abs_cum_sub_le {w w' : Fin N → ℝ} {ε : ℝ} (h : ∀ i, |w' i - w i| < ε) (i : Fin N) :
    |cum w' i - cum w i| ≤ N * ε := by
  rw [cum, cum, ← Finset.sum_sub_distrib]
  refine (Finset.abs_sum_le_sum_abs _ _).trans ?_
  refine (Finset.sum_le_sum fun j _ => (h j).le).trans ?_
  rw [Finset.sum_const, nsmul_eq_mul]
  have h0 : 0 ≤ ε := (abs_nonneg _).trans (h i).le
  refine mul_le_mul_of_nonneg_right ?_ h0
  exact_mod_cast (Finset.card_le_univ _).trans (by simp)

variable [NeZero N]

theorem cells_flat (pf : Platform) {x : Fin n → ℝ} (hx : Monotone x) (h0 : ∀ m, 0 < x m) (h1 : ∀ m, x m ≤ 1)
    {l : Fin N → Fl} (hl : IsLogits l) (hne : ∀ m i, x m ≠ cum (nw l) i) :
    ∃ ε > 0, ∀ l', IsLogits l' → (∀ i, |nw l' i - nw l i| < ε) →
      inverseCdf pf (fun m => Fl.fin (x m)) l' = inverseCdf pf (fun m => Fl.fin (x m)) l := by
  obtain ⟨δ, hδ, hδ0⟩ : ∃ δ : ℝ, (∀ p : Fin n × Fin N, δ < |x p.1 - cum (nw l) p.2|) ∧ 0 < δ := by
    have h2 : ∀ᶠ δ : ℝ in 𝓝[>] 0, ∀ p : Fin n × Fin N, δ < |x p.1 - cum (nw l) p.2| := by
      rw [eventually_all]
      intro p
      exact nhdsWithin_le_nhds (Iio_mem_nhds (abs_pos.2 (sub_ne_zero.2 (hne p.1 p.2))))
    exact (h2.and self_mem_nhdsWithin).exists
  have hN : (0 : ℝ) < N := by exact_mod_cast NeZero.pos N
  refine ⟨δ / N, by positivity, fun l' hl' hc => funext fun m => ?_⟩
  have hcum : ∀ i, |cum (nw l') i - cum (nw l) i| ≤ δ := fun i =>
    (abs_cum_sub_le hc i).trans (by field_simp; exact le_rfl)
  obtain ⟨i, hi⟩ : ∃ i, inverseCdf pf (fun m => Fl.fin (x m)) l m = i := ⟨_, rfl⟩
  rw [hi, inverse_cdf_cell pf hl' x hx m (h0 m) (h1 m)]
  rw [inverse_cdf_cell pf hl x hx m (h0 m) (h1 m)] at hi
  constructor
  · rcases Nat.eq_zero_or_pos (i : ℕ) with hi0 | hi0
    · rw [cumBelow_zero _ i hi0]; exact h0 m
    · have hj : (i : ℕ) = (⟨i - 1, by omega⟩ : Fin N) + 1 := by simp; omega
      rw [cumBelow_succ _ _ i hj] at hi ⊢
      have h2 := hδ (m, ⟨i - 1, by omega⟩)
      have h3 := hcum ⟨i - 1, by omega⟩
      rw [abs_of_pos (by linarith [hi.1])] at h2
      rw [abs_le] at h3
      dsimp only at h2
      linarith
  · have h2 := hδ (m, i)
    have h3 := hcum i
    dsimp only at h2
    rw [abs_of_nonpos (by linarith [hi.2])] at h2
    rw [abs_le] at h3
    linarith

variable [MeasurableSpace K] {rng : Rng K} {P : Measure K}

omit [NeZero N] [MeasurableSpace K] in
theorem measurable_cum_nw (i : Fin N) : Measurable fun l : Fin N → Fl => cum (nw l) i :=
  Finset.measurable_sum _ fun j _ => SMC.measurable_nw j

theorem unif_singleton (c : ℝ) : unif {c} = 0 := by
  rw [unif]
  exact le_antisymm ((Measure.restrict_apply_le _ _).trans (by simp)) zero_le

theorem flat_systematic (h : IdealRng rng P) (pf : Platform) :
    Flat P (fun k (l : Fin N → Fl) => systematicIdx rng pf l N k) := by
  refine ⟨{q | (0 < rng.uniform0 q.1 ∧ rng.uniform0 q.1 < 1) ∧
    ∀ (m : Fin N) (i : Fin N), (rng.uniform0 q.1 + (m : ℕ)) / N ≠ cum (nw q.2) i}, ?_, ?_, ?_⟩
  · have hu : Measurable fun q : K × (Fin N → Fl) => rng.uniform0 q.1 := h.uniform0.measurable.comp measurable_fst
    refine ((measurableSet_lt measurable_const hu).inter (measurableSet_lt hu measurable_const)).inter ?_
    have : {q : K × (Fin N → Fl) | ∀ (m : Fin N) (i : Fin N), (rng.uniform0 q.1 + (m : ℕ)) / N ≠ cum (nw q.2) i} =
        ⋂ m : Fin N, ⋂ i : Fin N, {q | (rng.uniform0 q.1 + (m : ℕ)) / N = cum (nw q.2) i}ᶜ := by ext q; simp
    change MeasurableSet {q : K × (Fin N → Fl) | _}
    rw [this]
    exact MeasurableSet.iInter fun m => MeasurableSet.iInter fun i => (measurableSet_eq_fun
      ((hu.add_const _).div_const _) ((measurable_cum_nw i).comp measurable_snd)).compl
  · intro l
    refine h.uniform0.quasiMeasurePreserving.ae (p := fun u => (0 < u ∧ u < 1) ∧
      ∀ (m : Fin N) (i : Fin N), (u + (m : ℕ)) / N ≠ cum (nw l) i) ?_
    refine unif_ae.and (ae_all_iff.2 fun m => ae_all_iff.2 fun i => ?_)
    have hN : (N : ℝ) ≠ 0 := by exact_mod_cast NeZero.ne N
    refine measure_mono_null (fun u hu => ?_) (unif_singleton (cum (nw l) i * N - (m : ℕ)))
    simp only [ne_eq, mem_compl_iff, mem_ofPred_eq, not_not] at hu
    rw [mem_singleton_iff, ← hu]
    field_simp
    ring
  · intro k l hk hl
    obtain ⟨⟨h0, h1⟩, h2⟩ := hk
    have he : systematicUniforms (rng.uniform0 k) N = fun m : Fin N => Fl.fin ((rng.uniform0 k + (m : ℕ)) / N) :=
      funext fun m => systematicUniforms_eq _ m
    have hN : (0 : ℝ) < N := by exact_mod_cast NeZero.pos N
    have := cells_flat (n := N) pf (x := fun m => (rng.uniform0 k + (m : ℕ)) / N) (systematic_monotone _)
      (fun m => div_pos (add_pos_of_pos_of_nonneg h0 (Nat.cast_nonneg _)) hN)
      (fun m => by
        have hm : ((m : ℕ) : ℝ) + 1 ≤ N := by exact_mod_cast m.isLt
        rw [div_le_one hN]; linarith) hl h2
    simpa only [systematicIdx, he] using this

attribute [local irreducible] inverseCdf sortedUniforms

theorem flat_multinomial (h : IdealRng rng P) (pf : Platform) :
    Flat P (fun k (l : Fin N → Fl) => multinomialIdx rng pf l N k) := by
  refine ⟨{q | (∀ i, 0 < rng.uniform (rng.nth q.1 2 0) (N + 1) i ∧ rng.uniform (rng.nth q.1 2 0) (N + 1) i < 1) ∧
    ∀ (m : Fin N) (i : Fin N), expSums (rng.uniform (rng.nth q.1 2 0) (N + 1)) m.castSucc /
      expSums (rng.uniform (rng.nth q.1 2 0) (N + 1)) (Fin.last N) ≠ cum (nw q.2) i}, ?_, ?_, ?_⟩
  · have hu : Measurable fun q : K × (Fin N → Fl) => rng.uniform (rng.nth q.1 2 0) (N + 1) :=
      (h.uniform (N + 1)).measurable.comp ((h.measurePreserving_nth 2 0).measurable.comp measurable_fst)
    have he : ∀ j, Measurable fun q : K × (Fin N → Fl) => expSums (rng.uniform (rng.nth q.1 2 0) (N + 1)) j := fun j =>
      (measurable_pi_apply j).comp (measurable_expSums.comp hu)
    have : {q : K × (Fin N → Fl) |
        (∀ i, 0 < rng.uniform (rng.nth q.1 2 0) (N + 1) i ∧ rng.uniform (rng.nth q.1 2 0) (N + 1) i < 1) ∧
        ∀ (m : Fin N) (i : Fin N), expSums (rng.uniform (rng.nth q.1 2 0) (N + 1)) m.castSucc /
          expSums (rng.uniform (rng.nth q.1 2 0) (N + 1)) (Fin.last N) ≠ cum (nw q.2) i} =
        (⋂ i, {q | 0 < rng.uniform (rng.nth q.1 2 0) (N + 1) i} ∩ {q | rng.uniform (rng.nth q.1 2 0) (N + 1) i < 1}) ∩
        ⋂ m : Fin N, ⋂ i : Fin N, {q | expSums (rng.uniform (rng.nth q.1 2 0) (N + 1)) m.castSucc /
          expSums (rng.uniform (rng.nth q.1 2 0) (N + 1)) (Fin.last N) = cum (nw q.2) i}ᶜ := by ext q; simp
    rw [this]
    refine (MeasurableSet.iInter fun i => (measurableSet_lt measurable_const ((measurable_pi_apply i).comp hu)).inter
      (measurableSet_lt ((measurable_pi_apply i).comp hu) measurable_const)).inter ?_
    exact MeasurableSet.iInter fun m => MeasurableSet.iInter fun i => (measurableSet_eq_fun
      ((he _).div (he _)) ((measurable_cum_nw i).comp measurable_snd)).compl
  · intro l
    refine ((h.uniform (N + 1)).comp (h.measurePreserving_nth 2 0)).quasiMeasurePreserving.ae
      (p := fun us => (∀ i, 0 < us i ∧ us i < 1) ∧ ∀ (m : Fin N) (i : Fin N),
        expSums us m.castSucc / expSums us (Fin.last N) ≠ cum (nw l) i) ?_
    refine Eventually.and (ae_all_iff.2 fun i =>
      (measurePreserving_eval (fun _ : Fin (N + 1) => unif) i).quasiMeasurePreserving.ae unif_ae) ?_
    -- no coordinate of independent uniforms equals a cumulative weight
    obtain ⟨B, hB⟩ : ∃ B : Set (Fin N → ℝ), B = ⋃ m : Fin N, ⋃ i : Fin N, {x | x m = cum (nw l) i} := ⟨_, rfl⟩
    have hBm : MeasurableSet B := by
      rw [hB]
      exact MeasurableSet.iUnion fun m => MeasurableSet.iUnion fun i =>
        measurable_pi_apply m (measurableSet_singleton _)
    have hB0 : (Measure.pi fun _ : Fin N => unif) B = 0 := by
      rw [hB, measure_iUnion_null_iff]
      intro m
      rw [measure_iUnion_null_iff]
      intro i
      exact ((measurePreserving_eval (fun _ : Fin N => unif) m).measure_preimage
        (measurableSet_singleton (cum (nw l) i)).nullMeasurableSet).trans (unif_singleton _)
    have hs := lintegral_shuffled (n := N) (G := B.indicator 1) (measurable_one.indicator hBm)
    rw [lintegral_indicator_one hBm, hB0] at hs
    have h1 := (Finset.sum_eq_zero_iff.1 hs) 1 (Finset.mem_univ _)
    rw [mul_eq_zero, or_iff_right (ENNReal.inv_ne_zero.2 (ENNReal.natCast_ne_top _))] at h1
    have hr : Measurable fun us : Fin (N + 1) → ℝ => fun m : Fin N => expSums us m.castSucc / expSums us (Fin.last N) :=
      measurable_pi_iff.mpr fun m => ((measurable_pi_apply _).comp measurable_expSums).div
        ((measurable_pi_apply _).comp measurable_expSums)
    have hm : Measurable fun us : Fin (N + 1) → ℝ => B.indicator (1 : (Fin N → ℝ) → ℝ≥0∞)
        fun m : Fin N => expSums us m.castSucc / expSums us (Fin.last N) := (measurable_one.indicator hBm).comp hr
    simp only [Equiv.Perm.coe_one, id_eq] at h1
    rw [lintegral_eq_zero_iff hm] at h1
    filter_upwards [h1] with us hus m i he
    have h2 : (fun m : Fin N => expSums us m.castSucc / expSums us (Fin.last N)) ∈ B := by
      rw [hB]
      exact mem_iUnion.2 ⟨m, mem_iUnion.2 ⟨i, he⟩⟩
    simp [indicator_of_mem h2] at hus
  · intro k l hk hl
    obtain ⟨h0, h2⟩ := hk
    have he : sortedUniforms (rng.uniform (rng.nth k 2 0) (N + 1)) = fun m : Fin N =>
        Fl.fin (expSums (rng.uniform (rng.nth k 2 0) (N + 1)) m.castSucc /
          expSums (rng.uniform (rng.nth k 2 0) (N + 1)) (Fin.last N)) :=
      funext fun m => sortedUniforms_eq (fun i => (h0 i).1) (fun i => (h0 i).2) m
    obtain ⟨ε, hε, hf⟩ := cells_flat (n := N) pf (sortedUniforms_monotone (fun i => (h0 i).1) (fun i => (h0 i).2))
      (fun m => (sortedUniforms_mem (fun i => (h0 i).1) (fun i => (h0 i).2) m).1)
      (fun m => (sortedUniforms_mem (fun i => (h0 i).1) (fun i => (h0 i).2) m).2) hl h2
    refine ⟨ε, hε, fun l' hl' hc => ?_⟩
    have h3 := hf l' hl' hc
    rw [← he] at h3
    funext m
    simp only [multinomialIdx, h3]

end

end Cuthbert.Resampling
