import Verif.Props.Consistency
import Verif.Props.ResamplingError
import Verif.Props.TracingSmoother

/-!
# Properties: the tracing smoother converges as the numbers of particles grow (C83)
-/

namespace Cuthbert.SMC
open MeasureTheory Set Resampling Spec Filter
open scoped ENNReal Topology

noncomputable section

attribute [local irreducible] multinomialIdx killingIdx

variable {K X Inp : Type} {N n : ℕ} [MeasurableSpace K] {P : Measure K} {rng : Rng K}

/-- The random indices `I` pick `n` particles whose average is close to the weighted average. -/
structure AccurateIdx (P : Measure K) (n : ℕ) (I : K → (Fin N → Fl) → Fin n → Fin N) : Prop where
  measurable_idx : ∀ l, Measurable fun k => I k l
  error : ∀ l, IsLogits l → ∀ (g : Fin N → ℝ) (c : ℝ), (∀ i, |g i| ≤ c) →
    ∫⁻ k, ENNReal.ofReal ((∑ m, (n : ℝ)⁻¹ * g (I k l m) - ∑ i, nw l i * g i) ^ 2) ∂P ≤
      ENNReal.ofReal (4 * c ^ 2 / n)

theorem accurateIdx_multinomial [NeZero N] [NeZero n] (h : IdealRng rng P) (pf : Platform) :
    AccurateIdx (N := N) P n fun k l => multinomialIdx rng pf l n k where
  measurable_idx l := (measurable_multinomialIdx h pf).comp (measurable_id.prodMk (measurable_const (a := l)))
  error l hl g c hg := by
    have := h.prob
    refine mse_slots hl (I := fun k => multinomialIdx rng pf l n k) ((measurable_multinomialIdx h pf).comp
      (measurable_id.prodMk (measurable_const (a := l)))) (fun _ i => ENNReal.ofReal (nw l i)) (fun m => ?_)
      (fun i => ?_) (multinomialIdx_law h pf hl) hg
    · rw [← ENNReal.ofReal_sum_of_nonneg fun i _ => nw_nonneg l i, nw_sum hl, ENNReal.ofReal_one]
    · simp

theorem accurateIdx_killing [NeZero N] (h : IdealRng rng P) (pf : Platform) :
    AccurateIdx P N fun k l => killingIdx rng pf l k where
  measurable_idx l := (measurable_killingIdx h pf).comp (measurable_id.prodMk (measurable_const (a := l)))
  error l hl g c hg := by
    have := h.prob
    refine mse_slots hl (I := fun k => killingIdx rng pf l k) ((measurable_killingIdx h pf).comp
      (measurable_id.prodMk (measurable_const (a := l)))) (fun m i => ENNReal.ofReal (killingSlot l m i)) (fun m => ?_)
      (fun i => ?_) (killingIdx_law h pf hl) hg
    · rw [← ENNReal.ofReal_sum_of_nonneg fun i _ => killingSlot_nonneg hl m i, killingSlot_sum hl, ENNReal.ofReal_one]
    · rw [← ENNReal.ofReal_sum_of_nonneg fun m _ => killingSlot_nonneg hl m i, sum_killingSlot hl,
        ENNReal.ofReal_mul (by positivity), ENNReal.ofReal_natCast]

omit [MeasurableSpace K] in
theorem abs_weighted_le {l : Fin N → Fl} {g : Fin N → ℝ} {c : ℝ} (hc : 0 ≤ c) (hg : ∀ i, |g i| ≤ c) :
    |∑ i, nw l i * g i| ≤ c := by
  have h1 : ∑ i, nw l i ≤ 1 := by
    simp only [nw]
    rw [← Finset.sum_div]
    exact div_self_le_one _
  calc |∑ i, nw l i * g i| ≤ ∑ i, |nw l i * g i| := Finset.abs_sum_le_sum_abs _ _
    _ ≤ ∑ i, nw l i * c := by
        refine Finset.sum_le_sum fun i _ => ?_
        rw [abs_mul, abs_of_nonneg (nw_nonneg l i)]
        exact mul_le_mul_of_nonneg_left (hg i) (nw_nonneg l i)
    _ = (∑ i, nw l i) * c := by rw [Finset.sum_mul]
    _ ≤ c := by nlinarith

omit [MeasurableSpace K] in
theorem abs_mean_le [NeZero n] {g : Fin n → ℝ} {c : ℝ} (hg : ∀ i, |g i| ≤ c) :
    |∑ m, (n : ℝ)⁻¹ * g m| ≤ c := by
  have hn : (0 : ℝ) < n := by exact_mod_cast NeZero.pos n
  calc |∑ m, (n : ℝ)⁻¹ * g m| ≤ ∑ m, |(n : ℝ)⁻¹ * g m| := Finset.abs_sum_le_sum_abs _ _
    _ ≤ ∑ _m : Fin n, (n : ℝ)⁻¹ * c := by
        refine Finset.sum_le_sum fun i _ => ?_
        rw [abs_mul, abs_of_nonneg (by positivity)]
        exact mul_le_mul_of_nonneg_left (hg i) (by positivity)
    _ = c := by
        rw [Finset.sum_const, Finset.card_univ, Fintype.card_fin, nsmul_eq_mul]
        field_simp

/-- The filter states of a run followed by the paths of the smoother `sm`, and a bound `e c` on the mean squared error of averages
over the paths of functions bounded by `c`. -/
def AccurateSmoother [MeasurableSpace X] (rng : Rng K) (P : Measure K) (mdl : FKModel K X Inp) (R' : Resampler K N X)
    (sm : SmootherObj Inp K (Except Err (PFState K X Inp N)) (Except Err (PSState K X Inp N)))
    (n : ℕ) (inputsOf : Except Err (PFState K X Inp N) → Inp) (dummyInp : Inp → Except Err Inp)
    (dummy : X) (u0 : Inp) (us : List Inp) (e : ℝ → ℝ) : Prop :=
  ∃ (S : K → ℕ → PFState K X Inp N) (p : K → K → Fin n → ℕ → X),
    (∀ k, filter rng.toPrng (particleFilter rng.toPrng mdl dummy N R') (u0 :: us) false (some k) =
      ⟨false, .ok ((List.range (us.length + 1)).map fun t => .ok (S k t))⟩) ∧
    (∀ k k', SmootherReturns rng.toPrng inputsOf dummyInp sm (S k) us k' (p k k')) ∧
    ∀ (f : (ℕ → X) → ℝ) (c : ℝ), Measurable f → (∀ x, |f x| ≤ c) →
      (∀ k, Measurable fun k' => (∑ m, f (p k k' m)) / n) ∧
      ∫⁻ k, ∫⁻ k', ENNReal.ofReal (((∑ m, f (p k k' m)) / n -
        fkMean (mdl.init P u0) (us.map (mdl.step P)) f) ^ 2) ∂P ∂P ≤ ENNReal.ofReal (e c)

/-- C83: run a particle filter whose estimates are accurate (C75) and then, with an independent key,
the tracing smoother with `n` smoother particles. The mean squared error of the average of a bounded function of the
smoothed paths is at most a constant over `n` plus a constant times the error of the filter. -/
theorem tracing_smoother_accurate [NeZero N] [NeZero n] [MeasurableSpace X] (h : IdealRng rng P)
    {mdl : FKModel K X Inp} {R' : Resampler K N X} {dummy : X} {u0 u : Inp} {us : List Inp} {B r : ℝ}
    (hr : 0 ≤ r) (hacc : AccurateRun rng P mdl R' dummy u0 (u :: us) B r) {pf : Platform} {R : Resampler K N X}
    (hR : R = multinomial rng pf ∨ n = N ∧ R = killing rng pf)
    (inputsOf : Except Err (PFState K X Inp N) → Inp) (dummyInp : Inp → Except Err Inp)
    {d d' : Inp} (hd : dummyInp u = .ok d) (hd' : dummyInp d = .ok d') {T : ℕ} (hT : T = us.length + 1) {z : ℝ}
    (hz : z = (fkExp (mdl.init P u0) ((u :: us).map (mdl.step P)) fun _ => 1).toReal) (hz0 : 0 < z) :
    AccurateSmoother rng P mdl R' (particleSmoother rng.toPrng dummyInp mdl.logPotential tracing R n) n inputsOf
      dummyInp dummy u0 (u :: us) fun c =>
      8 * c ^ 2 / n + 52 * (T + 12) * r * (B ^ T * c / z) ^ 2 := by
  have hP := h.prob
  obtain ⟨S, h1, h3⟩ := hacc
  obtain ⟨I, hI, hRI⟩ : ∃ I : K → (Fin N → Fl) → Fin n → Fin N, AccurateIdx P n I ∧
      ∀ k l pos, R k l pos n = .ok ⟨I k l, fun _ => 0, fun m => pos (I k l m)⟩ := by
    rcases hR with rfl | ⟨rfl, rfl⟩
    · exact ⟨_, accurateIdx_multinomial h pf, fun k l pos => multinomial_eq rng pf k l pos n⟩
    · exact ⟨_, accurateIdx_killing h pf, fun k l pos => killing_eq rng pf k l pos⟩
  refine ⟨S, fun k k' m => ancestralPath (fun s => (S k s).particles) (fun s => (S k s).ancestors)
    (us.length + 1) (I (rng.nth (rng.nth k' (us.length + 2) 0) 2 1) (S k (us.length + 1)).logWeights m),
    h1, fun k k' => ?_, fun f c hf hfc => ?_⟩
  · obtain ⟨keys, inputs, weights, h4, -⟩ := tracing_smoother_paths rng.toPrng inputsOf dummyInp mdl.logPotential R n
      (S k) u us k' hd hd' rfl (hRI _ _ _) fun m => rfl
    exact ⟨_, _, _, _, h4⟩
  have hc : 0 ≤ c := (abs_nonneg _).trans (hfc fun _ => dummy)
  have hn : (0 : ℝ) < n := by exact_mod_cast NeZero.pos n
  obtain ⟨h4, h5, h6, h7⟩ := h3 (us.length + 1) (by simp) z (by rw [hz]; simp)
  rw [show (u :: us).take (us.length + 1) = u :: us by simp] at h7
  obtain ⟨h8, h9⟩ := h7 f c hf hfc hz0
  obtain ⟨μ, hμ⟩ : ∃ μ, μ = fkMean (mdl.init P u0) ((u :: us).map (mdl.step P)) f := ⟨_, rfl⟩
  rw [← hμ] at h9 ⊢
  obtain ⟨φ, hφ⟩ : ∃ φ : K → K, φ = fun k' => rng.nth (rng.nth k' (us.length + 2) 0) 2 1 := ⟨_, rfl⟩
  have hφm : MeasurePreserving φ P P := by
    rw [hφ]
    exact (h.measurePreserving_nth 2 1).comp (h.measurePreserving_nth (us.length + 2) 0)
  obtain ⟨g, hg⟩ : ∃ g : K → Fin N → ℝ, g = fun k i => f (ancestralPath (fun s => (S k s).particles)
    (fun s => (S k s).ancestors) (us.length + 1) i) := ⟨_, rfl⟩
  have hgc : ∀ k i, |g k i| ≤ c := fun k i => by rw [hg]; exact hfc _
  have hav : ∀ k, average (S k) (us.length + 1) f = ∑ i, nw (S k (us.length + 1)).logWeights i * g k i := by
    intro k
    rw [average, hg]
  obtain ⟨Y, hY⟩ : ∃ Y : K → K → ℝ, Y = fun k κ =>
    ∑ m, (n : ℝ)⁻¹ * g k (I κ (S k (us.length + 1)).logWeights m) := ⟨_, rfl⟩
  have hYm : ∀ k, Measurable (Y k) := by
    intro k
    rw [hY]
    refine Finset.measurable_sum _ fun m _ => Measurable.const_mul ?_ _
    exact (measurable_of_finite (g k)).comp ((measurable_pi_apply m).comp (hI.measurable_idx _))
  have hsm : ∀ k k', (∑ m, f (ancestralPath (fun s => (S k s).particles) (fun s => (S k s).ancestors)
      (us.length + 1) (I (rng.nth (rng.nth k' (us.length + 2) 0) 2 1) (S k (us.length + 1)).logWeights m))) / n =
      Y k (φ k') := by
    intro k k'
    rw [hY, hg, hφ]
    simp only
    rw [← Finset.mul_sum, div_eq_inv_mul]
  simp only [hsm]
  refine ⟨fun k => (hYm k).comp hφm.measurable, ?_⟩
  obtain ⟨A, hA⟩ : ∃ A : K → ℝ, A = fun k => average (S k) (us.length + 1) f := ⟨_, rfl⟩
  have h8' : Measurable A := by rw [hA]; exact h8
  obtain ⟨L, hL⟩ : ∃ L : K → ℝ, L = fun k => (S k (us.length + 1)).logZ.lik := ⟨_, rfl⟩
  have h5' : Measurable L := by rw [hL]; exact h5
  have hin : ∀ k, ∫⁻ κ, ENNReal.ofReal ((Y k κ - A k) ^ 2) ∂P ≤
      ENNReal.ofReal (4 * c ^ 2 / n) + ENNReal.ofReal (4 * c ^ 2 / z ^ 2) * ENNReal.ofReal ((L k - z) ^ 2) := by
    intro k
    have hAk : A k = ∑ i, nw (S k (us.length + 1)).logWeights i * g k i := by rw [hA]; exact hav k
    rcases (h4 k).2 with h10 | h10
    · rw [hAk, hY]
      exact (hI.error _ h10 (g k) c (hgc k)).trans le_self_add
    · have hLk : L k = 0 := by
        rw [hL]
        simp only [h10]
        rfl
      calc ∫⁻ κ, ENNReal.ofReal ((Y k κ - A k) ^ 2) ∂P ≤ ∫⁻ _, ENNReal.ofReal (4 * c ^ 2) ∂P := by
            refine lintegral_mono fun κ => ENNReal.ofReal_le_ofReal ?_
            have e1 : |Y k κ| ≤ c := by rw [hY]; exact abs_mean_le fun m => hgc k _
            have e2 : |A k| ≤ c := by rw [hAk]; exact abs_weighted_le hc (hgc k)
            rw [abs_le] at e1 e2
            nlinarith
        _ = ENNReal.ofReal (4 * c ^ 2) := by rw [lintegral_const, measure_univ, mul_one]
        _ = ENNReal.ofReal (4 * c ^ 2 / z ^ 2) * ENNReal.ofReal ((L k - z) ^ 2) := by
            rw [hLk, ← ENNReal.ofReal_mul (by positivity)]
            congr 1
            field_simp
            ring
        _ ≤ _ := le_add_self
  have hout : ∀ k, ∫⁻ k', ENNReal.ofReal ((Y k (φ k') - μ) ^ 2) ∂P ≤
      2 * ENNReal.ofReal ((A k - μ) ^ 2) + 2 * (ENNReal.ofReal (4 * c ^ 2 / n) +
        ENNReal.ofReal (4 * c ^ 2 / z ^ 2) * ENNReal.ofReal ((L k - z) ^ 2)) := by
    intro k
    have hm1 : Measurable fun κ => ENNReal.ofReal ((Y k κ - μ) ^ 2) :=
      ENNReal.measurable_ofReal.comp (((hYm k).sub_const _).pow_const 2)
    have hm2 : Measurable fun κ => ENNReal.ofReal ((Y k κ - A k) ^ 2) :=
      ENNReal.measurable_ofReal.comp (((hYm k).sub_const _).pow_const 2)
    have e0 : ∫⁻ k', ENNReal.ofReal ((Y k (φ k') - μ) ^ 2) ∂P = ∫⁻ κ, ENNReal.ofReal ((Y k κ - μ) ^ 2) ∂P :=
      hφm.lintegral_comp hm1
    rw [e0]
    calc ∫⁻ κ, ENNReal.ofReal ((Y k κ - μ) ^ 2) ∂P ≤
        ∫⁻ κ, (2 * ENNReal.ofReal ((A k - μ) ^ 2) + 2 * ENNReal.ofReal ((Y k κ - A k) ^ 2)) ∂P := by
          refine lintegral_mono fun κ => ?_
          have e3 : ENNReal.ofReal (2 * (A k - μ) ^ 2 + 2 * (Y k κ - A k) ^ 2) =
              2 * ENNReal.ofReal ((A k - μ) ^ 2) + 2 * ENNReal.ofReal ((Y k κ - A k) ^ 2) := by
            rw [ENNReal.ofReal_add (by positivity) (by positivity), ENNReal.ofReal_mul (by norm_num),
              ENNReal.ofReal_mul (by norm_num)]
            simp
          rw [← e3]
          refine ENNReal.ofReal_le_ofReal ?_
          nlinarith [sq_nonneg (A k - μ - (Y k κ - A k))]
      _ = 2 * ENNReal.ofReal ((A k - μ) ^ 2) + 2 * ∫⁻ κ, ENNReal.ofReal ((Y k κ - A k) ^ 2) ∂P := by
          rw [lintegral_add_left measurable_const, lintegral_const, measure_univ, mul_one, lintegral_const_mul _ hm2]
      _ ≤ _ := by gcongr; exact hin k
  have hmA : Measurable fun k => ENNReal.ofReal ((A k - μ) ^ 2) :=
    ENNReal.measurable_ofReal.comp ((h8'.sub_const _).pow_const 2)
  have hmL : Measurable fun k => ENNReal.ofReal ((L k - z) ^ 2) :=
    ENNReal.measurable_ofReal.comp ((h5'.sub_const _).pow_const 2)
  calc ∫⁻ k, ∫⁻ k', ENNReal.ofReal ((Y k (φ k') - μ) ^ 2) ∂P ∂P ≤
      ∫⁻ k, (2 * ENNReal.ofReal ((A k - μ) ^ 2) + 2 * (ENNReal.ofReal (4 * c ^ 2 / n) +
        ENNReal.ofReal (4 * c ^ 2 / z ^ 2) * ENNReal.ofReal ((L k - z) ^ 2))) ∂P := lintegral_mono hout
    _ = 2 * ∫⁻ k, ENNReal.ofReal ((A k - μ) ^ 2) ∂P + 2 * (ENNReal.ofReal (4 * c ^ 2 / n) +
        ENNReal.ofReal (4 * c ^ 2 / z ^ 2) * ∫⁻ k, ENNReal.ofReal ((L k - z) ^ 2) ∂P) := by
        rw [lintegral_add_left (hmA.const_mul 2), lintegral_const_mul _ hmA,
          lintegral_const_mul _ ((hmL.const_mul _).const_add _), lintegral_add_left measurable_const,
          lintegral_const, measure_univ, mul_one, lintegral_const_mul _ hmL]
    _ ≤ 2 * ENNReal.ofReal (18 * (T + 12) * r * (B ^ T * c / z) ^ 2) + 2 * (ENNReal.ofReal (4 * c ^ 2 / n) +
        ENNReal.ofReal (4 * c ^ 2 / z ^ 2) * ENNReal.ofReal (2 * (T + 12) * r * (B ^ T) ^ 2)) := by
        rw [hA, hL, hT]
        gcongr
    _ = _ := by
        rw [← ENNReal.ofReal_mul (by positivity), ← ENNReal.ofReal_add (by positivity) (by positivity),
          show (2 : ℝ≥0∞) = ENNReal.ofReal 2 by simp, ← ENNReal.ofReal_mul (by norm_num),
          ← ENNReal.ofReal_mul (by norm_num), ← ENNReal.ofReal_add (by positivity) (by positivity)]
        congr 1
        field_simp
        ring

/-! ### Convergence -/

/-- As the number of filter and smoother particles grows (with smoother `sm N` after a filter with resampling function
`R' N`), the averages of bounded functions of the smoothed paths
converge in probability to their expectations under the normalised Feynman-Kac measure. -/
def ConsistentSmoothers [MeasurableSpace X] (rng : Rng K) (P : Measure K) (mdl : FKModel K X Inp)
    (R' : ∀ N : ℕ, Resampler K (N + 1) X)
    (sm : ∀ N : ℕ, SmootherObj Inp K (Except Err (PFState K X Inp (N + 1))) (Except Err (PSState K X Inp (N + 1))))
    (inputsOf : ∀ N : ℕ, Except Err (PFState K X Inp (N + 1)) → Inp)
    (dummyInp : Inp → Except Err Inp) (dummy : X) (u0 : Inp) (us : List Inp) : Prop :=
  ∃ (S : ∀ N : ℕ, K → ℕ → PFState K X Inp (N + 1)) (p : ∀ N : ℕ, K → K → Fin (N + 1) → ℕ → X),
    (∀ N k, filter rng.toPrng (particleFilter rng.toPrng mdl dummy (N + 1) (R' N)) (u0 :: us) false (some k) =
      ⟨false, .ok ((List.range (us.length + 1)).map fun t => .ok (S N k t))⟩) ∧
    (∀ N k k', SmootherReturns rng.toPrng (inputsOf N) dummyInp (sm N) (S N k) us k' (p N k k')) ∧
    ∀ (f : (ℕ → X) → ℝ) (c : ℝ), Measurable f → (∀ x, |f x| ≤ c) → ∀ ε : ℝ, 0 < ε →
      Tendsto (fun N => ∫⁻ k, P {k' | ε ≤ |(∑ m, f (p N k k' m)) / ((N + 1 : ℕ) : ℝ) -
        fkMean (mdl.init P u0) (us.map (mdl.step P)) f|} ∂P) atTop (𝓝 0)

theorem consistentSmoothers_of_accurate [MeasurableSpace X] {mdl : FKModel K X Inp}
    {R' : ∀ N : ℕ, Resampler K (N + 1) X}
    {sm : ∀ N : ℕ, SmootherObj Inp K (Except Err (PFState K X Inp (N + 1))) (Except Err (PSState K X Inp (N + 1)))}
    {inputsOf : ∀ N : ℕ, Except Err (PFState K X Inp (N + 1)) → Inp}
    {dummyInp : Inp → Except Err Inp} {dummy : X} {u0 : Inp} {us : List Inp} {e : ℕ → ℝ → ℝ}
    (h : ∀ N, AccurateSmoother rng P mdl (R' N) (sm N) (N + 1) (inputsOf N) dummyInp dummy u0 us (e N))
    (he : ∀ c, Tendsto (fun N => e N c) atTop (𝓝 0)) :
    ConsistentSmoothers rng P mdl R' sm inputsOf dummyInp dummy u0 us := by
  choose S p h1 h2 h3 using h
  refine ⟨S, p, h1, h2, fun f c hf hfc ε hε => ?_⟩
  have h4 : ∀ N, ∫⁻ k, P {k' | ε ≤ |(∑ m, f (p N k k' m)) / ((N + 1 : ℕ) : ℝ) -
      fkMean (mdl.init P u0) (us.map (mdl.step P)) f|} ∂P ≤ ENNReal.ofReal (e N c) / ENNReal.ofReal (ε ^ 2) := by
    intro N
    obtain ⟨μ, hμ⟩ : ∃ μ, μ = fkMean (mdl.init P u0) (us.map (mdl.step P)) f := ⟨_, rfl⟩
    obtain ⟨h5, h6⟩ := h3 N f c hf hfc
    rw [← hμ] at h6 ⊢
    have hε2 : ENNReal.ofReal (ε ^ 2) ≠ 0 := by simpa using hε.ne'
    calc _ ≤ ∫⁻ k, (∫⁻ k', ENNReal.ofReal (((∑ m, f (p N k k' m)) / ((N + 1 : ℕ) : ℝ) - μ) ^ 2) ∂P) *
          (ENNReal.ofReal (ε ^ 2))⁻¹ ∂P := by
          refine lintegral_mono fun k => ?_
          have h7 : {k' | ε ≤ |(∑ m, f (p N k k' m)) / ((N + 1 : ℕ) : ℝ) - μ|} =
              {k' | ENNReal.ofReal (ε ^ 2) ≤
                ENNReal.ofReal (((∑ m, f (p N k k' m)) / ((N + 1 : ℕ) : ℝ) - μ) ^ 2)} := by
            ext w
            simp only [mem_ofPred_eq]
            rw [ENNReal.ofReal_le_ofReal_iff (sq_nonneg _), sq_le_sq, abs_of_pos hε]
          rw [h7, ← div_eq_mul_inv]
          exact meas_ge_le_lintegral_div (ENNReal.measurable_ofReal.comp
            (((h5 k).sub_const μ).pow_const 2)).aemeasurable hε2 ENNReal.ofReal_ne_top
      _ = _ := lintegral_mul_const' _ _ (ENNReal.inv_ne_top.mpr hε2)
      _ ≤ _ := by rw [div_eq_mul_inv]; gcongr
  refine tendsto_of_tendsto_of_tendsto_of_le_of_le tendsto_const_nhds ?_ (fun _ => zero_le) h4
  have h8 : Tendsto (fun N => ENNReal.ofReal (e N c)) atTop (𝓝 (ENNReal.ofReal 0)) :=
    (ENNReal.continuous_ofReal.tendsto _).comp (he c)
  rw [ENNReal.ofReal_zero] at h8
  have h9 := ENNReal.Tendsto.div_const h8 (b := ENNReal.ofReal (ε ^ 2)) (.inr (by simpa using hε.ne'))
  rwa [ENNReal.zero_div] at h9

/-- C83: the particle filter followed by the tracing smoother is consistent, for both kinds of generator and every
combination of multinomial and killing resampling. -/
theorem tracing_smoother_consistent [MeasurableSpace X] (h : IdealRng rng P)
    (hI : IndepSplit rng.toPrng P ∨ PrefixSplit rng.toPrng) (pf pf' : Platform) {mdl : FKModel K X Inp} {u0 u : Inp}
    {us : List Inp} (h0 : Measurable fun k => mdl.initSample k u0) (hu : ∀ v ∈ u :: us, mdl.Regular v) {B : ℝ}
    (hb : ∀ v ∈ u :: us, ∀ x x', (mdl.logPotential x x' v).lik ≤ B)
    (hz : 0 < (fkExp (mdl.init P u0) ((u :: us).map (mdl.step P)) fun _ => 1).toReal)
    {R' R : ∀ N : ℕ, Resampler K (N + 1) X}
    (hR' : (R' = fun _ => multinomial rng pf) ∨ R' = fun _ => killing rng pf)
    (hR : (R = fun _ => multinomial rng pf') ∨ R = fun _ => killing rng pf')
    (inputsOf : ∀ N : ℕ, Except Err (PFState K X Inp (N + 1)) → Inp) (dummyInp : Inp → Except Err Inp)
    {d d' : Inp} (hd : dummyInp u = .ok d) (hd' : dummyInp d = .ok d') (dummy : X) :
    ConsistentSmoothers rng P mdl R'
      (fun N => particleSmoother rng.toPrng dummyInp mdl.logPotential tracing (R N) (N + 1)) inputsOf dummyInp dummy
      u0 (u :: us) := by
  have hB : 0 ≤ max B 0 := le_max_right _ _
  have hb' : ∀ v ∈ u :: us, ∀ x x', (mdl.logPotential x x' v).lik ≤ max B 0 := fun v hv x x' =>
    (hb v hv x x').trans (le_max_left _ _)
  refine consistentSmoothers_of_accurate (fun N => tracing_smoother_accurate (B := max B 0)
    (r := 1 / ((N + 1 : ℕ) : ℝ)) (pf := pf') h (by positivity) ?_ ?_ (inputsOf N) dummyInp hd hd' rfl rfl hz)
    fun c => ?_
  · rcases hR' with rfl | rfl
    · exact multinomial_filter_accurate h hI pf h0 hu hB hb' dummy
    · exact killing_filter_accurate h hI pf h0 hu hB hb' dummy
  · rcases hR with rfl | rfl
    · exact .inl rfl
    · exact .inr ⟨rfl, rfl⟩
  · have h1 : Tendsto (fun N : ℕ => 1 / ((N + 1 : ℕ) : ℝ)) atTop (𝓝 0) := by simpa using tendsto_inv_succ 1
    obtain ⟨z, hz'⟩ : ∃ z, z = (fkExp (mdl.init P u0) ((u :: us).map (mdl.step P)) fun _ => 1).toReal := ⟨_, rfl⟩
    rw [← hz']
    have h2 := h1.const_mul (8 * c ^ 2 + 52 * ((us.length + 1 : ℕ) + 12) *
      (max B 0 ^ (us.length + 1) * c / z) ^ 2)
    rw [mul_zero] at h2
    refine h2.congr fun N => ?_
    ring

/-- Potentials between `a` and one. -/
theorem fkPathExp_one_mem {E : Type*} [MeasurableSpace E] {a : ℝ≥0∞} : ∀ (ss : List (FKStep E)) (x : E),
    (∀ s ∈ ss, (∀ x, IsProbabilityMeasure (s.kernel x)) ∧ ∀ x x', a ≤ s.pot x x' ∧ s.pot x x' ≤ 1) →
    a ^ ss.length ≤ fkPathExp ss (fun _ => 1) x ∧ fkPathExp ss (fun _ => 1) x ≤ 1
  | [], x, _ => by simp [fkPathExp]
  | s :: ss, x, h => by
    have h1 := h s List.mem_cons_self
    have h2 := fun x => fkPathExp_one_mem ss x fun s hs => h s (List.mem_cons_of_mem _ hs)
    have := h1.1 x
    constructor
    · calc a ^ (s :: ss).length = ∫⁻ _, a * a ^ ss.length ∂s.kernel x := by
            rw [lintegral_const, measure_univ, mul_one, List.length_cons, pow_succ']
        _ ≤ _ := lintegral_mono fun x' => mul_le_mul' (h1.2 x x').1 (h2 x').1
    · calc fkPathExp (s :: ss) (fun _ => 1) x ≤ ∫⁻ _, 1 * 1 ∂s.kernel x :=
            lintegral_mono fun x' => mul_le_mul' (h1.2 x x').2 (h2 x').2
        _ = 1 := by rw [lintegral_const, measure_univ]; simp

/-- The hypotheses of C83 are met by ideal keys that split by prefix and a model that prefers steps over a
threshold. -/
example : ∃ rng : Rng Key, PrefixSplit rng.toPrng ∧
    ConsistentSmoothers rng keyLaw (⟨fun k _ => rng.uniform0 k, fun k x _ => x + rng.uniform0 k,
      fun x x' u => .fin (if x' < u then -1 - |x| / (1 + |x|) else 0)⟩ : FKModel Key ℝ ℝ)
      (fun _ => multinomial rng .cpu) (fun N => particleSmoother rng.toPrng (fun _ => .ok 0)
        (fun x x' u => .fin (if x' < u then -1 - |x| / (1 + |x|) else 0)) tracing (killing rng .cpu) (N + 1))
      (fun _ _ => 0) (fun _ => .ok 0) 0 0 [1, 2, 3] := by
  obtain ⟨rng, h1, h2⟩ := exists_ideal_prefix
  have hP := h1.prob
  have hpos : ∀ x : ℝ, 0 ≤ |x| / (1 + |x|) ∧ |x| / (1 + |x|) ≤ 1 := fun x =>
    ⟨by positivity, (div_le_one (by positivity)).mpr (by linarith [abs_nonneg x])⟩
  have hle : ∀ x x' u : ℝ, (if x' < u then -1 - |x| / (1 + |x|) else 0) ≤ 0 := by
    intro x x' u
    split_ifs
    · linarith [(hpos x).1]
    · exact le_rfl
  have hge : ∀ x x' u : ℝ, -2 ≤ (if x' < u then -1 - |x| / (1 + |x|) else 0) := by
    intro x x' u
    split_ifs
    · linarith [(hpos x).2]
    · norm_num
  refine ⟨rng, h2, tracing_smoother_consistent h1 (.inr h2) .cpu .cpu h1.uniform0.measurable (fun v _ => ⟨?_, ?_, ?_⟩)
    (B := 1) (fun v _ x x' => ?_) ?_ (.inl rfl) (.inr rfl) (fun _ _ => 0) (fun _ => .ok 0) rfl rfl 0⟩
  · exact measurable_snd.add (h1.uniform0.measurable.comp measurable_fst)
  · refine Fl.measurable_fin.comp (Measurable.ite (measurableSet_lt measurable_snd measurable_const) ?_ measurable_const)
    exact measurable_const.sub (measurable_fst.norm.div (measurable_const.add measurable_fst.norm))
  · intro x x'
    trivial
  · simp only [Fl.lik, Real.exp_le_one_iff]
    exact hle x x' v
  · have hmem := fun x => fkPathExp_one_mem (a := ENNReal.ofReal (Real.exp (-2))) (([1, 2, 3] : List ℝ).map
      (FKModel.step (⟨fun k _ => rng.uniform0 k, fun k x _ => x + rng.uniform0 k,
        fun x x' u => .fin (if x' < u then -1 - |x| / (1 + |x|) else 0)⟩ : FKModel Key ℝ ℝ) keyLaw)) x (by
      intro s hs
      obtain ⟨v, -, rfl⟩ := List.mem_map.mp hs
      refine ⟨fun x => Measure.isProbabilityMeasure_map (h1.uniform0.measurable.const_add x).aemeasurable,
        fun x x' => ⟨ENNReal.ofReal_le_ofReal ?_, ENNReal.ofReal_le_one.mpr ?_⟩⟩
      · exact Real.exp_le_exp.mpr (hge x x' v)
      · exact Real.exp_le_one_iff.mpr (hle x x' v))
    have hinit : IsProbabilityMeasure (keyLaw.map fun k => rng.uniform0 k) :=
      Measure.isProbabilityMeasure_map h1.uniform0.measurable.aemeasurable
    refine ENNReal.toReal_pos (ne_of_gt ?_) (ne_top_of_le_ne_top ENNReal.one_ne_top ?_)
    · calc 0 < ENNReal.ofReal (Real.exp (-2)) ^ 3 := by
            refine ENNReal.pow_pos (ENNReal.ofReal_pos.mpr (Real.exp_pos _)) _
        _ = ∫⁻ _, ENNReal.ofReal (Real.exp (-2)) ^ 3 ∂(keyLaw.map fun k => rng.uniform0 k) := by
            rw [lintegral_const, measure_univ, mul_one]
        _ ≤ _ := lintegral_mono fun x => (hmem x).1
    · calc _ ≤ ∫⁻ _, 1 ∂(keyLaw.map fun k => rng.uniform0 k) := lintegral_mono fun x => (hmem x).2
        _ = 1 := by rw [lintegral_const, measure_univ, mul_one]

end

end Cuthbert.SMC
