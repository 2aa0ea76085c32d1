import Mathlib.Probability.Independence.Basic
import Verif.Lemmas.SMCResamplers

/-!
# The law of a run of the particle filter
-/

namespace Cuthbert.SMC
open MeasureTheory Set Resampling
open scoped ENNReal

noncomputable section

variable {K X Inp : Type} {N : ℕ}

section good

variable {rng : Prng K} {mdl : FKModel K X Inp} {I : K → (Fin N → Fl) → Fin N → Fin N}
  {L : K → (Fin N → Fl) → Fin N → Fl}

/-- No state of a run contains `nan` or `+∞`. -/
theorem pfRun_good [NeZero N] (hL : ∀ k l, IsLogits l → IsLogits (L k l)) (u0 : Inp) (us : List Inp) (k : K)
    (hu : ∀ u ∈ us, ∀ x x', (mdl.logPotential x x' u).IsLog)
    (hd : RevivesDead L ∨ ∀ u ∈ us, ∀ x x', (mdl.logPotential x x' u).IsFin) :
    ∀ t ≤ us.length, Good (RevivesDead L) (pfRun rng mdl I L u0 us k t).core
  | 0, _ => by
    rw [pfRun_zero]
    exact good_coreInit (mdl := mdl) u0 _
  | t + 1, ht => by
    have ih := pfRun_good hL u0 us k hu hd t (by omega)
    have ht' : t < us.length := by omega
    rw [pfRun_succ u0 us k t ht']
    exact Good.step ih.logZ (hu _ (List.getElem_mem ht')) _ (ih.isLogits_L hL _)
      (hd.imp_right fun h => h _ (List.getElem_mem ht'))

end good

/-- Two entries of a sequence of independent variables. -/
theorem measurePreserving_pair {Ω : Type*} [MeasurableSpace Ω] (μ : Measure Ω) [IsProbabilityMeasure μ]
    {n : ℕ} {i j : Fin n} (hij : i ≠ j) :
    MeasurePreserving (fun x : Fin n → Ω => (x i, x j)) (Measure.pi fun _ => μ) (μ.prod μ) := by
  have h1 := ProbabilityTheory.iIndepFun_pi (μ := fun _ : Fin n => μ) (X := fun _ (x : Ω) => x)
    fun _ => aemeasurable_id
  have h2 := h1.indepFun hij
  refine ⟨(measurable_pi_apply i).prodMk (measurable_pi_apply j), ?_⟩
  rw [(ProbabilityTheory.indepFun_iff_map_prod_eq_prod_map_map
    (measurable_pi_apply i).aemeasurable (measurable_pi_apply j).aemeasurable).mp h2,
    (measurePreserving_eval (fun _ : Fin n => μ) i).map_eq,
    (measurePreserving_eval (fun _ : Fin n => μ) j).map_eq]

section law

variable [MeasurableSpace K] [MeasurableSpace X] {P : Measure K} {rng : Rng K} {mdl : FKModel K X Inp}
  {I : K → (Fin N → Fl) → Fin N → Fin N} {L : K → (Fin N → Fl) → Fin N → Fl}

omit [MeasurableSpace X] in
/-- The initial key of a particle and its first propagation key are independent. -/
theorem pair_of_prefix (h : IdealRng rng P) (hp : PrefixSplit rng.toPrng) (i : Fin N) :
    MeasurePreserving (fun k => (rng.nth k N i, rng.nth k (N + 1) i.succ)) P (P.prod P) := by
  have := h.prob
  have h1 : ∀ k, rng.nth k N i = rng.nth k (N + 1) i.castSucc := fun k => hp k N (N + 1) i i.2 _
  simp only [h1]
  exact (measurePreserving_pair P (by
    intro h2
    have := congrArg Fin.val h2
    simp at this)).comp (h.split (N + 1))

omit [MeasurableSpace X] in
theorem pair_of_indep (h : IdealRng rng P) (hi : IndepSplit rng.toPrng P) (i : Fin N) :
    MeasurePreserving (fun k => (rng.nth k N i, rng.nth k (N + 1) i.succ)) P (P.prod P) := by
  have := h.prob
  exact ((measurePreserving_eval (fun _ : Fin N => P) i).prod
    (measurePreserving_eval (fun _ : Fin (N + 1) => P) i.succ)).comp (hi N (N + 1) (by omega))

omit [MeasurableSpace X] in
theorem fkG_take {Y : Type} (mdl : FKModel K Y Inp) (f : Y → ℝ≥0∞) : ∀ (us : List Inp) (t : ℕ), t ≤ us.length →
    fkG P mdl f us t = fkG P mdl f (us.take t) t
  | [], t, ht => by simp [fkG]
  | _ :: _, 0, _ => by simp [fkG]
  | u :: us, t + 1, ht => by
    simp only [List.take_succ_cons, fkG]
    rw [fkG_take mdl f us t (by simpa using ht)]

omit [MeasurableSpace K] [MeasurableSpace X] in
theorem ancestralPath_clip (xs : ℕ → Fin N → X) (A : ℕ → Fin N → Fin N) (t : ℕ) (i : Fin N) :
    (fun s => ancestralPath xs A t i (t - (t - s))) = ancestralPath xs A t i := by
  funext s
  by_cases hs : s ≤ t
  · rw [Nat.sub_sub_self hs]
  · rw [show t - (t - s) = t by omega, ancestralPath_self, ancestralPath, min_eq_right (by omega),
      lineage_self _ _ _ _ (by omega)]

omit [MeasurableSpace K] [MeasurableSpace X] in
/-- The estimate in terms of the run on paths. -/
theorem pathEst_eq (u0 : Inp) (us : List Inp) (k : K) (t : ℕ) (ht : t ≤ us.length)
    (f : (ℕ → X) → ℝ≥0∞) :
    pathEst (pfRun rng.toPrng mdl I L u0 us k) t f =
      est (fun q : ℕ → X => f fun s => q (t - s))
        (coreAt rng.toPrng (pathModel mdl) I L us t (rng.nth k (us.length + 1) 0)
          (coreInit (pathModel mdl) u0 (rng.nth (rng.nth k (us.length + 1) 0) N))
          (Fin.tail (rng.nth k (us.length + 1)))) := by
  obtain ⟨h1, h2, h3⟩ := pfRun_path (rng := rng.toPrng) (mdl := mdl) (I := I) (L := L) u0 us k t ht
  have h4 := core_pfAt (rng := rng.toPrng) (mdl := pathModel mdl) (I := I) (L := L) us t
    (pfInit rng.toPrng (pathModel mdl) N u0 (rng.nth k (us.length + 1) 0))
    (Fin.tail (rng.nth k (us.length + 1)))
  have h5 : coreAt rng.toPrng (pathModel mdl) I L us t (rng.nth k (us.length + 1) 0)
          (coreInit (pathModel mdl) u0 (rng.nth (rng.nth k (us.length + 1) 0) N))
          (Fin.tail (rng.nth k (us.length + 1))) =
      (pfRun rng.toPrng (pathModel mdl) I L u0 us k t).core := h4.symm
  rw [h5]
  simp only [est, PFState.core, h1, h2, h3, pathEst, ancestralPath_clip]

/-- The state of a run is a measurable function of its keys. -/
theorem measurable_runCore (h : IdealRng rng P) (hR : UnbiasedWeights P I L) {u0 : Inp}
    (h0 : Measurable fun k => mdl.initSample k u0) (us : List Inp) (t : ℕ) (hu : ∀ u' ∈ us, mdl.Regular u') :
    Measurable fun keys : Fin (us.length + 1) → K =>
      coreAt rng.toPrng mdl I L us t (keys 0) (coreInit mdl u0 (rng.nth (keys 0) N)) (Fin.tail keys) := by
  have h2 : Measurable fun keys : Fin (us.length + 1) → K => Fin.tail keys :=
    measurable_pi_iff.mpr fun i => measurable_pi_apply i.succ
  have h3 : Measurable fun keys : Fin (us.length + 1) → K =>
      (coreInit mdl u0 (rng.nth (keys 0) N) : Core X N) :=
    (measurable_coreInit h0).comp ((measurable_nthAll h N).comp (measurable_pi_apply 0))
  exact (measurable_coreAt h hR us t hu).comp ((measurable_pi_apply 0).prodMk (h3.prodMk h2))

theorem measurable_pathEst (h : IdealRng rng P) (hR : UnbiasedWeights P I L) {u0 : Inp}
    (h0 : Measurable fun k => mdl.initSample k u0) (us : List Inp) (hu : ∀ u' ∈ us, mdl.Regular u')
    (t : ℕ) (ht : t ≤ us.length) {f : (ℕ → X) → ℝ≥0∞} (hf : Measurable f) :
    Measurable fun k => pathEst (pfRun rng.toPrng mdl I L u0 us k) t f := by
  have hf' : Measurable fun q : ℕ → X => f fun s => q (t - s) :=
    hf.comp (measurable_pi_iff.mpr fun s => measurable_pi_apply _)
  have h0' : Measurable fun k => (pathModel mdl).initSample k u0 := measurable_pi_iff.mpr fun _ => h0
  simp only [pathEst_eq u0 us _ t ht]
  exact (measurable_est hf').comp ((measurable_runCore h hR h0' us t
    fun u' h' => pathModel_regular (hu u' h')).comp (h.split (us.length + 1)).measurable)

omit [MeasurableSpace K] [MeasurableSpace X] in
/-- The weighted average in terms of the run on paths. -/
theorem average_eq_core (u0 : Inp) (us : List Inp) (k : K) (t : ℕ) (ht : t ≤ us.length)
    (f : (ℕ → X) → ℝ) :
    average (pfRun rng.toPrng mdl I L u0 us k) t f =
      (fun c : Core (ℕ → X) N => ∑ i, nw c.2.1 i * f fun s => c.1 i (t - s))
        (coreAt rng.toPrng (pathModel mdl) I L us t (rng.nth k (us.length + 1) 0)
          (coreInit (pathModel mdl) u0 (rng.nth (rng.nth k (us.length + 1) 0) N))
          (Fin.tail (rng.nth k (us.length + 1)))) := by
  obtain ⟨h1, h2, h3⟩ := pfRun_path (rng := rng.toPrng) (mdl := mdl) (I := I) (L := L) u0 us k t ht
  have h4 := core_pfAt (rng := rng.toPrng) (mdl := pathModel mdl) (I := I) (L := L) us t
    (pfInit rng.toPrng (pathModel mdl) N u0 (rng.nth k (us.length + 1) 0))
    (Fin.tail (rng.nth k (us.length + 1)))
  have h5 : coreAt rng.toPrng (pathModel mdl) I L us t (rng.nth k (us.length + 1) 0)
          (coreInit (pathModel mdl) u0 (rng.nth (rng.nth k (us.length + 1) 0) N))
          (Fin.tail (rng.nth k (us.length + 1))) =
      (pfRun rng.toPrng (pathModel mdl) I L u0 us k t).core := h4.symm
  rw [h5]
  simp only [PFState.core, h1, h3, average, ancestralPath_clip]

theorem measurable_average (h : IdealRng rng P) (hR : UnbiasedWeights P I L) {u0 : Inp}
    (h0 : Measurable fun k => mdl.initSample k u0) (us : List Inp) (hu : ∀ u' ∈ us, mdl.Regular u')
    (t : ℕ) (ht : t ≤ us.length) {f : (ℕ → X) → ℝ} (hf : Measurable f) :
    Measurable fun k => average (pfRun rng.toPrng mdl I L u0 us k) t f := by
  have hf' : Measurable fun q : ℕ → X => f fun s => q (t - s) :=
    hf.comp (measurable_pi_iff.mpr fun s => measurable_pi_apply _)
  have h0' : Measurable fun k => (pathModel mdl).initSample k u0 := measurable_pi_iff.mpr fun _ => h0
  have h1 : Measurable fun c : Core (ℕ → X) N => ∑ i, nw c.2.1 i * f fun s => c.1 i (t - s) := by
    refine Finset.measurable_sum _ fun i _ => ?_
    have h2 : Measurable fun c : Core (ℕ → X) N => nw c.2.1 i :=
      (measurable_nw i).comp (measurable_fst.comp measurable_snd)
    exact h2.mul (hf'.comp ((measurable_pi_apply i).comp measurable_fst))
  simp only [average_eq_core u0 us _ t ht]
  exact h1.comp ((measurable_runCore h hR h0' us t
    fun u' h' => pathModel_regular (hu u' h')).comp (h.split (us.length + 1)).measurable)

/-- The law of the estimates of a run. -/
theorem lintegral_pathEst [NeZero N] (h : IdealRng rng P) (hR : UnbiasedWeights P I L)
    (hI : IndepSplit rng.toPrng P ∨ PrefixSplit rng.toPrng ∧ KeepsEqual P I L) {u0 : Inp}
    (h0 : Measurable fun k => mdl.initSample k u0) (us : List Inp) (hu : ∀ u' ∈ us, mdl.Regular u')
    (hd : RevivesDead L ∨ ∀ u' ∈ us, ∀ x x', (mdl.logPotential x x' u').IsFin)
    (t : ℕ) (ht : t ≤ us.length) {f : (ℕ → X) → ℝ≥0∞} (hf : Measurable f) :
    ∫⁻ k, pathEst (pfRun rng.toPrng mdl I L u0 us k) t f ∂P =
      fkExp (mdl.init P u0) ((us.take t).map (mdl.step P)) f := by
  have := h.prob
  have hf' : Measurable fun q : ℕ → X => f fun s => q (t - s) :=
    hf.comp (measurable_pi_iff.mpr fun s => measurable_pi_apply _)
  have hu' : ∀ u' ∈ us, (pathModel mdl).Regular u' := fun u' h' => pathModel_regular (hu u' h')
  have h0' : Measurable fun k => (pathModel mdl).initSample k u0 :=
    measurable_pi_iff.mpr fun _ => h0
  have hd' : RevivesDead L ∨ ∀ u' ∈ us, ∀ x x', ((pathModel mdl).logPotential x x' u').IsFin :=
    hd.imp_right fun h1 u' h' x x' => h1 u' h' _ _
  have hl : (us.take t).length = t := by simpa using ht
  simp only [pathEst_eq u0 us _ t ht]
  rw [lintegral_run h hR h0' hf' us t hu']
  rw [← fkG_path_init (us.take t) hf (fun u' h' => hu u' (List.mem_of_mem_take h')) h0, hl,
    ← fkG_take _ _ us t ht]
  rcases hI with hI | ⟨hp, hk⟩
  · exact lintegral_run_indep h hR hI h0' hf' us t ht hu' hd'
  · exact lintegral_run_pairs h hR (pair_of_prefix h hp) hk h0' hf' us t ht hu' hd'

end law

end

end Cuthbert.SMC
