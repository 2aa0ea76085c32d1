import Verif.Lemmas.BackwardSampling
import Verif.Props.ParticleFilterKeys

/-!
# Properties: unbiased path estimates from exact backward sampling (C77)
-/

namespace Cuthbert.SMC
open MeasureTheory Set Resampling Spec
open scoped ENNReal

noncomputable section

variable {K X Inp : Type} {N n : ℕ}

/-! ### One path -/

/-- The path that backward sampling with the keys `ks` gives for particle `i` at time `t`. -/
def backPath [NeZero N] (rng : Rng K) (ld : ℕ → X → X → Fl) (H : ℕ → Core X N) (ks : ℕ → K) :
    ℕ → Fin N → ℕ → X
  | 0, i => fun _ => (H 0).1 i
  | t + 1, i => splice t (backPath rng ld H ks t (rng.categorical (ks t) N
      (exactLogWeights (H t).1 ((H (t + 1)).1 i) (H t).2.1 (ld t)))) ((H (t + 1)).1 i)

theorem backPath_congr [NeZero N] {rng : Rng K} {ld : ℕ → X → X → Fl} {H : ℕ → Core X N} {ks ks' : ℕ → K} :
    ∀ (t : ℕ) (i : Fin N), (∀ s < t, ks s = ks' s) → backPath rng ld H ks t i = backPath rng ld H ks' t i
  | 0, _, _ => rfl
  | t + 1, i, h => by
    rw [backPath, backPath, h t (by omega), backPath_congr t _ fun s hs => h s (by omega)]

theorem backPath_self [NeZero N] {rng : Rng K} {ld : ℕ → X → X → Fl} {H : ℕ → Core X N} {ks : ℕ → K} (t : ℕ)
    (i : Fin N) : backPath rng ld H ks t i t = (H t).1 i := by
  cases t with
  | zero => rfl
  | succ t => rw [backPath, splice, if_neg (by omega)]

/-- The particles of slot `m` of a run of the smoother form such a path. -/
theorem backIdx_exact [NeZero N] (rng : Rng K) (F : ℕ → PFState K X Inp N) (ld : ℕ → X → X → Fl) (keys : ℕ → K)
    (T : ℕ) (J : Fin n → Fin N) (m : Fin n) : ∀ s ≤ T, ∀ t, t ≤ T - s →
      backPath rng ld (fun t => (F t).core) (fun t => rng.nth (keys t) n m) (T - s)
          (backIdx (exactIdx rng) F ld keys T J s m) t =
        backPath rng ld (fun t => (F t).core) (fun t => rng.nth (keys t) n m) T (J m) t
  | 0, _, t, _ => rfl
  | s + 1, hs, t, ht => by
    rw [← backIdx_exact rng F ld keys T J m s (by omega) t (by omega)]
    have h : T - s = (T - (s + 1)) + 1 := by omega
    rw [h, backPath, splice, if_pos ht, ← h]
    rfl

theorem backIdx_exact_eq [NeZero N] (rng : Rng K) (F : ℕ → PFState K X Inp N) (ld : ℕ → X → X → Fl) (keys : ℕ → K)
    (T : ℕ) (J : Fin n → Fin N) (m : Fin n) (t : ℕ) (ht : t ≤ T) :
    (F t).particles (backIdx (exactIdx rng) F ld keys T J (T - t) m) =
      backPath rng ld (fun t => (F t).core) (fun t => rng.nth (keys t) n m) T (J m) t := by
  rw [← backIdx_exact rng F ld keys T J m (T - t) (by omega) t (by omega), show T - (T - t) = t by omega,
    backPath_self]
  rfl

/-- Finitely many keys as a sequence. -/
def extendKeys (k0 : K) {t : ℕ} (κ : Fin t → K) : ℕ → K := fun s => if h : s < t then κ ⟨s, h⟩ else k0

section law

variable [MeasurableSpace K] {P : Measure K} {rng : Rng K}

theorem measurable_extendKeys (k0 : K) (t : ℕ) : Measurable (extendKeys k0 : (Fin t → K) → ℕ → K) := by
  refine measurable_pi_iff.mpr fun s => ?_
  unfold extendKeys
  split_ifs with h
  · exact measurable_pi_apply _
  · exact measurable_const

variable [NeZero N] (h : IdealRng rng P)

include h

theorem measurable_backPath (ld : ℕ → X → X → Fl) (H : ℕ → Core X N) : ∀ (t : ℕ) (i : Fin N) (ψ : (ℕ → X) → ℝ≥0∞),
    Measurable fun ks : ℕ → K => ψ (backPath rng ld H ks t i)
  | 0, _, _ => by
    simp only [backPath]
    exact measurable_const
  | t + 1, i, ψ => by
    obtain ⟨l, hl⟩ : ∃ l, l = exactLogWeights (H t).1 ((H (t + 1)).1 i) (H t).2.1 (ld t) := ⟨_, rfl⟩
    have h1 : ∀ ks : ℕ → K, ψ (backPath rng ld H ks (t + 1) i) = ∑ j, (if rng.categorical (ks t) N l = j then 1 else 0) *
        ψ (splice t (backPath rng ld H ks t j) ((H (t + 1)).1 i)) := by
      intro ks
      rw [Finset.sum_eq_single (rng.categorical (ks t) N l)]
      · rw [if_pos rfl, one_mul, backPath, hl]
      · intro j _ hj
        rw [if_neg hj.symm, zero_mul]
      · simp
    simp only [h1]
    refine Finset.measurable_sum _ fun j _ => ?_
    have h2 : Measurable fun ks : ℕ → K => rng.categorical (ks t) N l :=
      Measurable.comp (f := fun ks : ℕ → K => (ks t, l)) (h.categorical_measurable N) ((measurable_pi_apply t).prodMk measurable_const)
    have h3 : Measurable fun r : Fin N => if r = j then (1 : ℝ≥0∞) else 0 := measurable_of_finite _
    exact (h3.comp h2).mul (measurable_backPath ld H t j fun p => ψ (splice t p ((H (t + 1)).1 i)))

/-- The expectation over the keys. -/
theorem lintegral_backPath (ld : ℕ → X → X → Fl) (H : ℕ → Core X N) (k0 : K) : ∀ (t : ℕ) (i : Fin N)
    (ψ : (ℕ → X) → ℝ≥0∞), ∫⁻ κ : Fin t → K, ψ (backPath rng ld H (extendKeys k0 κ) t i) ∂(Measure.pi fun _ => P) =
      backExp P rng ld H t i ψ
  | 0, i, ψ => by
    have := h.prob
    simp [backPath, backExp]
  | t + 1, i, ψ => by
    have := h.prob
    obtain ⟨l, hl⟩ : ∃ l, l = exactLogWeights (H t).1 ((H (t + 1)).1 i) (H t).2.1 (ld t) := ⟨_, rfl⟩
    have h0 : Measurable fun κ : Fin (t + 1) → K => ψ (backPath rng ld H (extendKeys k0 κ) (t + 1) i) :=
      (measurable_backPath h ld H (t + 1) i ψ).comp (measurable_extendKeys k0 (t + 1))
    rw [lintegral_pi_snoc P h0]
    have h1 : ∀ (c : K) (y : Fin t → K), backPath rng ld H (extendKeys k0 (Fin.snoc (α := fun _ => K) y c)) (t + 1) i =
        splice t (backPath rng ld H (extendKeys k0 y) t (rng.categorical c N l)) ((H (t + 1)).1 i) := by
      intro c y
      have h2 : extendKeys k0 (Fin.snoc (α := fun _ => K) y c) t = c := by
        rw [extendKeys, dif_pos (by omega)]
        exact Fin.snoc_last (α := fun _ => K) c y
      rw [backPath, h2, ← hl]
      rw [backPath_congr (ks' := extendKeys k0 y) t _ fun s hs => ?_]
      rw [extendKeys, dif_pos (by omega), extendKeys, dif_pos hs]
      exact Fin.snoc_castSucc (α := fun _ => K) c y ⟨s, hs⟩
    simp only [h1]
    have h2 : ∀ c, ∫⁻ y : Fin t → K, ψ (splice t (backPath rng ld H (extendKeys k0 y) t (rng.categorical c N l))
        ((H (t + 1)).1 i)) ∂(Measure.pi fun _ => P) =
        ∑ j, (if rng.categorical c N l = j then 1 else 0) * backExp P rng ld H t j fun p => ψ (splice t p ((H (t + 1)).1 i)) := by
      intro c
      rw [Finset.sum_eq_single (rng.categorical c N l)]
      · rw [if_pos rfl, one_mul]
        exact lintegral_backPath ld H k0 t _ fun p => ψ (splice t p ((H (t + 1)).1 i))
      · intro j _ hj
        rw [if_neg hj.symm, zero_mul]
      · simp
    simp only [h2]
    have h3 : ∀ j, Measurable fun c => if rng.categorical c N l = j then (1 : ℝ≥0∞) else 0 := by
      intro j
      have h4 : Measurable fun c => rng.categorical c N l :=
        (h.categorical_measurable N).comp (measurable_id.prodMk measurable_const)
      have h5 : Measurable fun r : Fin N => if r = j then (1 : ℝ≥0∞) else 0 := measurable_of_finite _
      exact h5.comp h4
    rw [lintegral_finsetSum' _ fun j _ => ((h3 j).mul_const _).aemeasurable, backExp]
    refine Finset.sum_congr rfl fun j _ => ?_
    rw [lintegral_mul_const _ (h3 j)]
    congr 1
    rw [backLaw, ← hl, ← lintegral_indicator_one (measurableSet_categorical h l j)]
    refine lintegral_congr fun c => ?_
    simp [indicator_apply]

/-- The expected sum over all slots of a run of the smoother. -/
theorem lintegral_backPath_sum (ld : ℕ → X → X → Fl) (H : ℕ → Core X N) (T : ℕ) {I : K → (Fin N → Fl) → Fin n → Fin N}
    (hI : UnbiasedIdx P n I) (hl : IsLogits (H T).2.1) (ψ : (ℕ → X) → ℝ≥0∞) :
    Measurable (fun k => ∑ m, ψ (backPath rng ld H (fun t => rng.nth (backKey rng.toPrng k T t) n m) T
      (I (rng.nth (rng.nth k (T + 1) 0) 2 1) (H T).2.1 m))) ∧
    ∫⁻ k, ∑ m, ψ (backPath rng ld H (fun t => rng.nth (backKey rng.toPrng k T t) n m) T
        (I (rng.nth (rng.nth k (T + 1) 0) 2 1) (H T).2.1 m)) ∂P =
      n * ∑ i, ENNReal.ofReal (nw (H T).2.1 i) * backExp P rng ld H T i ψ := by
  have := h.prob
  obtain ⟨k0⟩ : Nonempty K := by
    by_contra hne
    have : IsEmpty K := not_nonempty_iff.mp hne
    have h1 : P univ = 1 := measure_univ
    rw [univ_eq_empty_iff.mpr this, measure_empty] at h1
    exact zero_ne_one h1
  obtain ⟨J, hJ⟩ : ∃ J : K → Fin n → Fin N, J = fun k => I k (H T).2.1 := ⟨_, rfl⟩
  have hJm : Measurable J := by
    rw [hJ]
    exact measurable_to_countable' fun b => hI.measurable_idx _ b
  -- the keys of slot `m`
  obtain ⟨sl, hsl⟩ : ∃ sl : Fin n → (Fin T → K) → Fin T → K, sl = fun m y t => rng.nth (y t) n m := ⟨_, rfl⟩
  have hslp : ∀ m, MeasurePreserving (sl m) (Measure.pi fun _ => P) (Measure.pi fun _ => P) := fun m => by
    rw [hsl]
    exact measurePreserving_pi (fun _ : Fin T => P) (fun _ => P) fun _ => h.measurePreserving_nth n m
  have h1 : ∀ k m, backPath rng ld H (fun t => rng.nth (backKey rng.toPrng k T t) n m) T
        (I (rng.nth (rng.nth k (T + 1) 0) 2 1) (H T).2.1 m) =
      backPath rng ld H (extendKeys k0 (sl m (Fin.tail (rng.nth k (T + 1))))) T
        (J (rng.nth (rng.nth k (T + 1) 0) 2 1) m) := by
    intro k m
    rw [hJ]
    refine backPath_congr T _ fun s hs => ?_
    rw [backKey, dif_pos hs, extendKeys, dif_pos hs, hsl]
    rfl
  simp only [h1]
  have h2 : Measurable fun keys : Fin (T + 1) → K => Fin.tail keys :=
    measurable_pi_iff.mpr fun i => measurable_pi_apply i.succ
  have hm : ∀ m, Measurable fun keys : Fin (T + 1) → K => ψ (backPath rng ld H (extendKeys k0 (sl m (Fin.tail keys))) T
      (J (rng.nth (keys 0) 2 1) m)) := by
    intro m
    have h3 : ∀ keys : Fin (T + 1) → K, ψ (backPath rng ld H (extendKeys k0 (sl m (Fin.tail keys))) T
        (J (rng.nth (keys 0) 2 1) m)) = ∑ i, (if J (rng.nth (keys 0) 2 1) m = i then 1 else 0) *
          ψ (backPath rng ld H (extendKeys k0 (sl m (Fin.tail keys))) T i) := by
      intro keys
      rw [Finset.sum_eq_single (J (rng.nth (keys 0) 2 1) m)]
      · rw [if_pos rfl, one_mul]
      · intro j _ hj
        rw [if_neg hj.symm, zero_mul]
      · simp
    simp only [h3]
    refine Finset.measurable_sum _ fun i _ => ?_
    have h4 : Measurable fun r : Fin n → Fin N => if r m = i then (1 : ℝ≥0∞) else 0 := measurable_of_finite _
    have h5 : Measurable fun keys : Fin (T + 1) → K => J (rng.nth (keys 0) 2 1) :=
      hJm.comp ((h.measurable_nth 2 1).comp (measurable_pi_apply 0))
    have h6 : Measurable fun keys : Fin (T + 1) → K => extendKeys k0 (sl m (Fin.tail keys)) :=
      (measurable_extendKeys k0 T).comp ((hslp m).measurable.comp h2)
    exact (h4.comp h5).mul ((measurable_backPath h ld H T i ψ).comp h6)
  have hms : Measurable fun keys : Fin (T + 1) → K => ∑ m, ψ (backPath rng ld H (extendKeys k0 (sl m (Fin.tail keys))) T
      (J (rng.nth (keys 0) 2 1) m)) := Finset.measurable_sum _ fun m _ => hm m
  refine ⟨hms.comp (h.split (T + 1)).measurable, ?_⟩
  refine ((h.split (T + 1)).lintegral_comp hms).trans ?_
  rw [lintegral_finsetSum' _ fun m _ => (hm m).aemeasurable]
  have h3 : ∀ m, ∫⁻ keys : Fin (T + 1) → K, ψ (backPath rng ld H (extendKeys k0 (sl m (Fin.tail keys))) T
      (J (rng.nth (keys 0) 2 1) m)) ∂(Measure.pi fun _ => P) = ∫⁻ k, backExp P rng ld H T (J k m) ψ ∂P := by
    intro m
    rw [lintegral_pi_cons P (hm m)]
    simp only [Fin.cons_zero, Fin.tail_cons]
    have h4 : ∀ i, ∫⁻ y : Fin T → K, ψ (backPath rng ld H (extendKeys k0 (sl m y)) T i) ∂(Measure.pi fun _ => P) =
        backExp P rng ld H T i ψ := by
      intro i
      rw [← lintegral_backPath h ld H k0 T i ψ]
      exact (hslp m).lintegral_comp (f := fun κ => ψ (backPath rng ld H (extendKeys k0 κ) T i))
        ((measurable_backPath h ld H T i ψ).comp (measurable_extendKeys k0 T))
    simp only [h4]
    have h5 : Measurable fun k => backExp P rng ld H T (J k m) ψ :=
      (measurable_of_finite fun r : Fin n → Fin N => backExp P rng ld H T (r m) ψ).comp hJm
    exact (h.measurePreserving_nth 2 1).lintegral_comp h5
  simp only [h3]
  have h4 : ∀ m, Measurable fun k => backExp P rng ld H T (J k m) ψ := fun m =>
    (measurable_of_finite fun r : Fin n → Fin N => backExp P rng ld H T (r m) ψ).comp hJm
  rw [← lintegral_finsetSum' _ fun m _ => (h4 m).aemeasurable, hJ]
  exact hI.average _ hl fun i => backExp P rng ld H T i ψ

end law

/-! ## C77 -/

section main

variable [MeasurableSpace K] {P : Measure K} {rng : Rng K}

omit [MeasurableSpace K] in
/-- The paths of the smoother with exact backward sampling after a run of the filter with final states `F`. -/
theorem exact_smoother_returns [NeZero N] (F : ℕ → PFState K X Inp N) {u : Inp} {us : List Inp} {R : Resampler K N X}
    {J : K → (Fin N → Fl) → Fin n → Fin N}
    (hRJ : ∀ k l pos, R k l pos n = .ok ⟨J k l, fun _ => 0, fun m => pos (J k l m)⟩)
    (inputsOf : Except Err (PFState K X Inp N) → Inp) (dummyInp : Inp → Except Err Inp)
    (logPotential : X → X → Inp → Fl) {d d' : Inp} (hdd : dummyInp u = .ok d) (hdd' : dummyInp d = .ok d')
    {ld : ℕ → X → X → Fl} (hld : ld = usedDensity logPotential (u :: us) d') (k' : K) :
    SmootherReturns rng.toPrng inputsOf dummyInp
      (particleSmoother rng.toPrng dummyInp logPotential (exact rng) R n) F (u :: us) k'
      fun m => backPath rng ld (fun t => (F t).core)
        (fun t => rng.nth (backKey rng.toPrng k' (us.length + 1) t) n m) (us.length + 1)
        (J (rng.nth (rng.nth k' (us.length + 2) 0) 2 1) (F (us.length + 1)).logWeights m) := by
  have h1 := smoother_ps_eq rng.toPrng inputsOf dummyInp logPotential (samplesBy_exact rng) R n F u us k'
    hdd hdd' (hRJ _ _ _) fun m => rfl
  refine ⟨fun t => if t < us.length + 1 then backKey rng.toPrng k' (us.length + 1) t else
      rng.nth (rng.nth k' (us.length + 2) 0) 2 0,
    fun t m => (F t).ancestors (backIdx (exactIdx rng) F ld (backKey rng.toPrng k' (us.length + 1))
      (us.length + 1) (J (rng.nth (rng.nth k' (us.length + 2) 0) 2 1) (F (us.length + 1)).logWeights)
      (us.length + 1 - t) m),
    fun t => (u :: us)[t]?.getD d', fun t => if t < us.length + 1 then fun _ => -Fl.log (Fl.fin n) else
      fun _ => 0, ?_⟩
  refine h1.trans ?_
  refine congrArg Except.ok (List.map_congr_left fun t ht => ?_)
  have ht' : t < us.length + 2 := by simpa using ht
  congr 1
  rw [← hld]
  have h2 := fun m => backIdx_exact_eq rng F ld (backKey rng.toPrng k' (us.length + 1)) (us.length + 1)
    (J (rng.nth (rng.nth k' (us.length + 2) 0) 2 1) (F (us.length + 1)).logWeights) m t (by omega)
  simp only [← h2]
  by_cases h3 : t < us.length + 1
  · rw [psAt, dif_pos (by simpa using h3)]
    have h4 : (u :: us)[t]?.getD d' = (u :: us)[t]'(by simpa using h3) := by
      rw [List.getElem?_eq_getElem (by simpa using h3), Option.getD_some]
    simp only [if_pos h3, List.length_cons, h4]
  · have h4 : t = us.length + 1 := by omega
    subst h4
    rw [psAt, dif_neg (by simp)]
    have h5 : (u :: us)[us.length + 1]?.getD d' = d' := by
      rw [List.getElem?_eq_none (by simp), Option.getD_none]
    simp only [lt_irrefl, if_false, h5, Nat.sub_self]
    rfl

/-- The smoother after a run of the filter with final states `F`, when its own key is integrated out. -/
theorem exact_smoother_given_filter [NeZero N] [NeZero n] (h : IdealRng rng P) (F : ℕ → PFState K X Inp N)
    {u : Inp} {us : List Inp} {pf : Platform} {R : Resampler K N X}
    (hR : R = multinomial rng pf ∨ R = systematic rng pf ∨ n = N ∧ R = killing rng pf)
    (inputsOf : Except Err (PFState K X Inp N) → Inp) (dummyInp : Inp → Except Err Inp)
    (logPotential : X → X → Inp → Fl) {d d' : Inp} (hdd : dummyInp u = .ok d) (hdd' : dummyInp d = .ok d')
    (hF : IsLogits (F (us.length + 1)).logWeights ∨ (F (us.length + 1)).logZ = Fl.ninf) :
    ∃ p : K → Fin n → ℕ → X,
      (∀ k, SmootherReturns rng.toPrng inputsOf dummyInp
        (particleSmoother rng.toPrng dummyInp logPotential (exact rng) R n) F (u :: us) k (p k)) ∧
      ∀ f : (ℕ → X) → ℝ≥0∞, ∫⁻ k, ENNReal.ofReal (F (us.length + 1)).logZ.lik * ((∑ m, f (p k m)) / n) ∂P =
        histEst P rng (usedDensity logPotential (u :: us) d') (fun t => (F t).core) (us.length + 1) f := by
  have := h.prob
  obtain ⟨J, hJ, hRJ⟩ : ∃ J : K → (Fin N → Fl) → Fin n → Fin N, UnbiasedIdx P n J ∧
      ∀ k l pos, R k l pos n = .ok ⟨J k l, fun _ => 0, fun m => pos (J k l m)⟩ := by
    rcases hR with rfl | rfl | ⟨rfl, rfl⟩
    · exact ⟨_, unbiasedIdx_multinomial h pf n, fun k l pos => multinomial_eq rng pf k l pos n⟩
    · exact ⟨_, unbiasedIdx_systematic h pf n, fun k l pos => systematic_eq rng pf k l pos n⟩
    · exact ⟨_, unbiasedIdx_killing h pf, fun k l pos => killing_eq rng pf k l pos⟩
  obtain ⟨ld, hld⟩ : ∃ ld, ld = usedDensity logPotential (u :: us) d' := ⟨_, rfl⟩
  refine ⟨fun k' m => backPath rng ld (fun t => (F t).core)
      (fun t => rng.nth (backKey rng.toPrng k' (us.length + 1) t) n m) (us.length + 1)
      (J (rng.nth (rng.nth k' (us.length + 2) 0) 2 1) (F (us.length + 1)).logWeights m),
    fun k' => ?_, fun f => ?_⟩
  · exact exact_smoother_returns F hRJ inputsOf dummyInp logPotential hdd hdd' hld k'
  · rw [histEst, ← hld]
    rcases hF with h3 | h3
    · obtain ⟨h4, h5⟩ := lintegral_backPath_sum h ld (fun t => (F t).core) (us.length + 1) hJ h3 f
      simp only [div_eq_mul_inv]
      have h6 : ((fun t => (F t).core) (us.length + 1)).2.1 = (F (us.length + 1)).logWeights := rfl
      rw [h6] at h4 h5
      rw [lintegral_const_mul _ (h4.mul_const _), lintegral_mul_const _ h4, h5, mul_comm (n : ℝ≥0∞), mul_assoc,
        ENNReal.mul_inv_cancel (by exact_mod_cast NeZero.ne n) (ENNReal.natCast_ne_top n), mul_one]
      rfl
    · have h4 : ((F (us.length + 1)).core).2.2 = Fl.ninf := h3
      simp only [h3, h4, Fl.lik, ENNReal.ofReal_zero, zero_mul, lintegral_zero]

variable [MeasurableSpace X] {mdl : FKModel K X Inp}

/-- C77: run a particle filter with unbiased resampling and then, with an independent key, the smoother with
exact backward sampling. If, for all inputs, the exponential of the log potential of the smoother is the
density of the weighted transitions of the filter (up to factors that depend on the later state only), then
the evidence estimate times the average of any function of the smoothed paths is an unbiased estimate of the
unnormalised Feynman-Kac expectation of that function. Missing: for generators such as JAX's default one
(`PrefixSplit`) this is false, see `exact_smoother_biased`; for log potentials that depend on the inputs it is
false, see `smoother_uses_wrong_inputs`. -/
theorem exact_smoother_unbiased_partial [NeZero N] [NeZero n] (h : IdealRng rng P) (hind : IndepSplit rng.toPrng P)
    {R' : Resampler K N X} {I : K → (Fin N → Fl) → Fin N → Fin N} {L : K → (Fin N → Fl) → Fin N → Fl}
    (hR' : Uses R' I L) (hU : UnbiasedWeights P I L) {u0 u : Inp} {us : List Inp}
    (h0 : Measurable fun k => mdl.initSample k u0) (hu : ∀ v ∈ u :: us, mdl.Regular v)
    (hd : RevivesDead L ∨ ∀ v ∈ u :: us, ∀ x x', (mdl.logPotential x x' v).IsFin) (dummy : X)
    {pf : Platform} {R : Resampler K N X}
    (hR : R = multinomial rng pf ∨ R = systematic rng pf ∨ n = N ∧ R = killing rng pf)
    (inputsOf : Except Err (PFState K X Inp N) → Inp) (dummyInp : Inp → Except Err Inp)
    {logPotential : X → X → Inp → Fl}
    (hlp : ∀ v ∈ u :: us, ∀ w, BackwardDensity (mdl.step P v) fun x x' => logPotential x x' w)
    {d d' : Inp} (hdd : dummyInp u = .ok d) (hdd' : dummyInp d = .ok d') :
    ∃ (S : K → ℕ → PFState K X Inp N) (p : K → K → Fin n → ℕ → X),
      (∀ k, filter rng.toPrng (particleFilter rng.toPrng mdl dummy N R') (u0 :: u :: us) false (some k) =
        ⟨false, .ok ((List.range (us.length + 2)).map fun t => .ok (S k t))⟩) ∧
      (∀ k k', SmootherReturns rng.toPrng inputsOf dummyInp
        (particleSmoother rng.toPrng dummyInp logPotential (exact rng) R n) (S k) (u :: us) k' (p k k')) ∧
      ∀ f : (ℕ → X) → ℝ≥0∞, Measurable f →
        ∫⁻ k, ∫⁻ k', ENNReal.ofReal (S k (us.length + 1)).logZ.lik * ((∑ m, f (p k k' m)) / n) ∂P ∂P =
          fkExp (mdl.init P u0) ((u :: us).map (mdl.step P)) f := by
  have hldd : ∀ s (hs : s < (u :: us).length), BackwardDensity (mdl.step P (u :: us)[s])
      (usedDensity logPotential (u :: us) d' s) := fun s hs => hlp _ (List.getElem_mem hs) _
  have hg := fun k => pfRun_good (rng := rng.toPrng) (mdl := mdl) (I := I) hU.isLogits u0 (u :: us) k
    (fun u h => (hu u h).isLog) hd (us.length + 1) (by simp)
  have key := fun k => exact_smoother_given_filter (n := n) h (pfRun rng.toPrng mdl I L u0 (u :: us) k) hR inputsOf
    dummyInp logPotential hdd hdd' ((hg k).alive.imp_right fun h => h.2)
  choose p hp1 hp2 using key
  refine ⟨fun k t => pfRun rng.toPrng mdl I L u0 (u :: us) k t, p, fun k => filter_pf_eq hR' dummy u0 (u :: us) k,
    hp1, fun f hf => ?_⟩
  rw [← lintegral_histEst_run h hU hind h0 hf (u :: us) hu hldd hd]
  exact lintegral_congr fun k => hp2 k f

/-- C77 with the three resampling functions in the filter. -/
theorem exact_smoother_unbiased_resampling_partial [NeZero N] [NeZero n] (h : IdealRng rng P)
    (hind : IndepSplit rng.toPrng P) {pf : Platform} {R' : Resampler K N X}
    (hR' : R' = multinomial rng pf ∨ R' = systematic rng pf ∨ R' = killing rng pf) {u0 u : Inp} {us : List Inp}
    (h0 : Measurable fun k => mdl.initSample k u0) (hu : ∀ v ∈ u :: us, mdl.Regular v) (dummy : X)
    {R : Resampler K N X} (hR : R = multinomial rng pf ∨ R = systematic rng pf ∨ n = N ∧ R = killing rng pf)
    (inputsOf : Except Err (PFState K X Inp N) → Inp) (dummyInp : Inp → Except Err Inp)
    {logPotential : X → X → Inp → Fl}
    (hlp : ∀ v ∈ u :: us, ∀ w, BackwardDensity (mdl.step P v) fun x x' => logPotential x x' w)
    {d d' : Inp} (hdd : dummyInp u = .ok d) (hdd' : dummyInp d = .ok d') :
    ∃ (S : K → ℕ → PFState K X Inp N) (p : K → K → Fin n → ℕ → X),
      (∀ k, filter rng.toPrng (particleFilter rng.toPrng mdl dummy N R') (u0 :: u :: us) false (some k) =
        ⟨false, .ok ((List.range (us.length + 2)).map fun t => .ok (S k t))⟩) ∧
      (∀ k k', SmootherReturns rng.toPrng inputsOf dummyInp
        (particleSmoother rng.toPrng dummyInp logPotential (exact rng) R n) (S k) (u :: us) k' (p k k')) ∧
      ∀ f : (ℕ → X) → ℝ≥0∞, Measurable f →
        ∫⁻ k, ∫⁻ k', ENNReal.ofReal (S k (us.length + 1)).logZ.lik * ((∑ m, f (p k k' m)) / n) ∂P ∂P =
          fkExp (mdl.init P u0) ((u :: us).map (mdl.step P)) f := by
  rcases hR' with rfl | rfl | rfl
  · exact exact_smoother_unbiased_partial h hind (uses_multinomial rng pf) (unbiasedWeights_multinomial h pf) h0 hu
      (.inl revivesDead_zero) dummy hR inputsOf dummyInp hlp hdd hdd'
  · exact exact_smoother_unbiased_partial h hind (uses_systematic rng pf) (unbiasedWeights_systematic h pf) h0 hu
      (.inl revivesDead_zero) dummy hR inputsOf dummyInp hlp hdd hdd'
  · exact exact_smoother_unbiased_partial h hind (uses_killing rng pf) (unbiasedWeights_killing h pf) h0 hu
      (.inl revivesDead_zero) dummy hR inputsOf dummyInp hlp hdd hdd'

/-- The hypotheses of C77: 5 filter and 7 smoother particles, a model whose potentials depend on the inputs and
forbid some moves. -/
theorem exampleModel_density (h : IdealRng rng P) (v : ℝ) : BackwardDensity ((exampleModel rng).step P v)
    fun x x' => if x ≤ x' ∧ x' < x + 1 then Fl.fin (-x ^ 2) else Fl.ninf where
  isLog x x' := by split_ifs <;> trivial
  measurable := by
    refine Measurable.ite ?_ (Fl.measurable_fin.comp (measurable_fst.pow_const 2).neg) measurable_const
    exact (measurableSet_le measurable_fst measurable_snd).inter
      (measurableSet_lt measurable_snd (measurable_fst.add_const 1))
  density := by
    have hq : Measurable fun x' : ℝ => if x' < v then Fl.ninf else Fl.fin (-(x' - v) ^ 2) :=
      Measurable.ite (measurableSet_lt measurable_id measurable_const) measurable_const
        (Fl.measurable_fin.comp ((measurable_id.sub_const v).pow_const 2).neg)
    have hqm : Measurable fun x' : ℝ =>
        ENNReal.ofReal (if x' < v then Fl.ninf else Fl.fin (-(x' - v) ^ 2)).lik :=
      ENNReal.measurable_ofReal.comp (Fl.measurable_lik.comp hq)
    refine ⟨volume.withDensity fun x' => ENNReal.ofReal (if x' < v then Fl.ninf else Fl.fin (-(x' - v) ^ 2)).lik,
      fun x => ?_⟩
    have h1 : ((exampleModel rng).step P v).kernel x = volume.restrict (Ico x (x + 1)) := by
      change P.map (fun k => x + rng.uniform0 k) = _
      have h2 : P.map (fun k => x + rng.uniform0 k) = (P.map rng.uniform0).map fun y => x + y :=
        (Measure.map_map (measurable_const_add x) h.uniform0.measurable).symm
      rw [h2, h.uniform0.map_eq, unif]
      have h3 : Ico (0 : ℝ) 1 = (fun y => x + y) ⁻¹' Ico x (x + 1) := by
        ext y
        simp
      rw [h3, ← Measure.restrict_map (measurable_const_add x) measurableSet_Ico, map_add_left_eq_self]
    have h4 : Measurable fun x' : ℝ => ENNReal.ofReal (if x ≤ x' ∧ x' < x + 1 then Fl.fin (-x ^ 2) else Fl.ninf).lik := by
      refine ENNReal.measurable_ofReal.comp (Fl.measurable_lik.comp ?_)
      refine Measurable.ite ?_ measurable_const measurable_const
      exact (measurableSet_le measurable_const measurable_id).inter
        (measurableSet_lt measurable_id measurable_const)
    rw [h1, ← withDensity_indicator measurableSet_Ico, ← withDensity_mul _ hqm h4]
    congr 1
    funext x'
    simp only [indicator_apply, mem_Ico, Pi.mul_apply, FKModel.step, exampleModel]
    by_cases h5 : x ≤ x' ∧ x' < x + 1
    · rw [if_pos h5, if_pos h5]
      split_ifs
      · simp [Fl.lik]
      · simp only [Fl.lik]
        rw [← ENNReal.ofReal_mul (Real.exp_pos _).le, ← Real.exp_add]
        congr 2
    · rw [if_neg h5, if_neg h5]
      simp [Fl.lik]

example : ∃ rng : Rng Key, ∃ (S : Key → ℕ → PFState Key ℝ ℝ 5) (p : Key → Key → Fin 7 → ℕ → ℝ),
    (∀ k k', SmootherReturns rng.toPrng (fun _ => 0) (fun _ => .ok 0)
      (particleSmoother rng.toPrng (fun _ => .ok 0)
        (fun x x' _ => if x ≤ x' ∧ x' < x + 1 then Fl.fin (-x ^ 2) else Fl.ninf) (exact rng)
        (systematic rng .cpu) 7) (S k) [1, 2] k' (p k k')) ∧
    ∫⁻ k, ∫⁻ k', ENNReal.ofReal (S k 2).logZ.lik * ((∑ m, ENNReal.ofReal (p k k' m 0)) / (7 : ℕ)) ∂keyLaw ∂keyLaw =
      fkExp ((exampleModel rng).init keyLaw 0) ([1, 2].map ((exampleModel rng).step keyLaw)) fun p =>
        ENNReal.ofReal (p 0) := by
  obtain ⟨rng, h1, h2⟩ := exists_ideal_indep
  obtain ⟨S, p, -, h5, h6⟩ := exact_smoother_unbiased_resampling_partial (N := 5) (n := 7) (mdl := exampleModel rng)
    (u0 := 0) (us := [2]) h1 h2 (pf := .cpu) (.inr (.inr rfl)) h1.uniform0.measurable
    (fun v _ => exampleModel_regular h1 v) 0 (.inr (.inl rfl)) (fun _ => 0)
    (fun _ => .ok 0) (fun v _ _ => exampleModel_density h1 v) rfl rfl
  exact ⟨rng, S, p, h5, h6 _ (ENNReal.measurable_ofReal.comp (measurable_pi_apply 0))⟩

end main

/-! ### The counterexample -/

/-- Independent fair coins without observations. -/
def coinsModel (rng : Rng K) : FKModel K Bool Unit where
  initSample k _ := coin rng k
  propagate k _ _ := coin rng k
  logPotential _ _ _ := 0

section biased

variable [MeasurableSpace K] {P : Measure K} {rng : Rng K} (h : IdealRng rng P)

include h

omit h in
theorem coinsModel_density : BackwardDensity ((coinsModel rng).step P ()) fun _ _ => 0 where
  isLog _ _ := trivial
  measurable := measurable_const
  density := ⟨P.map (coin rng), fun _ => rfl⟩

/-- The probability that two coins agree. -/
theorem coins_agree : fkExp ((coinsModel rng).init P ()) [(coinsModel rng).step P ()]
    (fun p => if p 0 = p 1 then 1 else 0) = 2⁻¹ := by
  have := h.prob
  have h1 : ∀ x, fkPathExp [(coinsModel rng).step P ()] (fun p => if p 0 = p 1 then 1 else 0) x = 2⁻¹ := by
    intro x
    simp only [fkPathExp, FKModel.step]
    change ∫⁻ x' : Bool, _ ∂(P.map (coin rng)) = _
    rw [lintegral_map (measurable_of_finite _) (measurable_coin h), ← coin_law h x]
    refine lintegral_congr fun k => ?_
    simp only [coinsModel, Fl.zero_def, Fl.lik, Real.exp_zero, ENNReal.ofReal_one, one_mul]
    rfl
  simp only [fkExp, h1]
  rw [lintegral_const]
  change _ * (P.map (coin rng)) univ = _
  rw [Measure.map_apply (measurable_coin h) MeasurableSet.univ, preimage_univ, measure_univ, mul_one]

theorem coin_mean (φ : Bool → ℝ) (hφ : ∀ b, 0 ≤ φ b) :
    ∫⁻ k, ENNReal.ofReal (φ (coin rng k)) ∂P = ENNReal.ofReal ((φ true + φ false) / 2) := by
  have h1 : ∀ k, ENNReal.ofReal (φ (coin rng k)) =
      ENNReal.ofReal (φ true) * (if true = coin rng k then 1 else 0) +
        ENNReal.ofReal (φ false) * (if false = coin rng k then 1 else 0) := by
    intro k
    cases coin rng k <;> simp
  have hm : ∀ y : Bool, Measurable fun k => (if y = coin rng k then 1 else 0 : ℝ≥0∞) := fun y => by
    have h4 : Measurable fun z : Bool => (if y = z then 1 else 0 : ℝ≥0∞) := measurable_of_finite _
    exact h4.comp (measurable_coin h)
  have h2 : (2⁻¹ : ℝ≥0∞) = ENNReal.ofReal 2⁻¹ := by
    rw [ENNReal.ofReal_inv_of_pos (by norm_num)]
    simp
  simp only [h1]
  rw [lintegral_add_left ((hm true).const_mul _), lintegral_const_mul _ (hm true), lintegral_const_mul _ (hm false),
    coin_law h, coin_law h, h2, ← ENNReal.ofReal_mul (hφ _), ← ENNReal.ofReal_mul (hφ _),
    ← ENNReal.ofReal_add (mul_nonneg (hφ _) (by norm_num)) (mul_nonneg (hφ _) (by norm_num))]
  congr 1
  ring

/-- C77 is false for every ideal generator with prefix splitting, such as JAX's default one, whatever the
resampling functions: two particles, independent fair coins without observations. Two successive coins agree
with probability `1/2`; for the smoothed paths the expected proportion is `5/8`, because the key that draws the
initial particle `1` also propagates particle `0`, and backward sampling pairs these two particles. -/
theorem exact_smoother_biased (hp : PrefixSplit rng.toPrng) (pf : Platform) {R' R : Resampler K 2 Bool}
    (hR' : R' = multinomial rng pf ∨ R' = systematic rng pf ∨ R' = killing rng pf)
    (hR : R = multinomial rng pf ∨ R = systematic rng pf ∨ R = killing rng pf) (dummy : Bool)
    (inputsOf : Except Err (PFState K Bool Unit 2) → Unit) :
    BackwardDensity ((coinsModel rng).step P ()) (fun _ _ => 0) ∧
    ∃ (S : K → ℕ → PFState K Bool Unit 2) (p : K → K → Fin 2 → ℕ → Bool),
      (∀ k, filter rng.toPrng (particleFilter rng.toPrng (coinsModel rng) dummy 2 R') [(), ()] false (some k) =
        ⟨false, .ok [.ok (S k 0), .ok (S k 1)]⟩) ∧
      (∀ k k', SmootherReturns rng.toPrng inputsOf (fun _ => .ok ())
        (particleSmoother rng.toPrng (fun _ => .ok ()) (fun _ _ _ => 0) (exact rng) R 2) (S k) [()] k' (p k k')) ∧
      (∀ k, (S k 1).logZ = 0) ∧
      ∫⁻ k, ∫⁻ k', (∑ m, if p k k' m 0 = p k k' m 1 then 1 else 0) / (2 : ℕ) ∂P ∂P = 5 / 8 ∧
      fkExp ((coinsModel rng).init P ()) [(coinsModel rng).step P ()] (fun p => if p 0 = p 1 then 1 else 0) =
        1 / 2 := by
  have := h.prob
  obtain ⟨I, hI⟩ : ∃ I, Uses R' I zeroLogits := by
    rcases hR' with rfl | rfl | rfl
    · exact ⟨_, uses_multinomial rng pf⟩
    · exact ⟨_, uses_systematic rng pf⟩
    · exact ⟨_, uses_killing rng pf⟩
  -- the run in terms of three keys
  obtain ⟨a, ha⟩ : ∃ a : K → Fin 3 → K, a = fun k => rng.nth (rng.nth k 2 0) 3 := ⟨_, rfl⟩
  have ha2 : ∀ k (i : Fin 2), rng.nth (rng.nth k 2 0) 2 i = a k i.castSucc := fun k i => by
    rw [ha]
    exact hp _ 2 3 i i.2 _
  have hc0 : ∀ k, (pfRun rng.toPrng (coinsModel rng) I zeroLogits () [()] k 0).core =
      (fun i => coin rng (a k i.castSucc), fun _ => 0, 0) := by
    intro k
    rw [pfRun_zero]
    simp only [pfInit, PFState.core, coinsModel]
    have h1 : ∀ i, rng.nth (rng.nth k ([()].length + 1) 0) 2 i = a k i.castSucc := fun i => ha2 k i
    simp only [h1]
  have hc1 : ∀ k, (pfRun rng.toPrng (coinsModel rng) I zeroLogits () [()] k 1).core =
      (fun i => coin rng (a k i.succ), fun _ => 0, 0) := by
    intro k
    rw [pfRun_succ () [()] k 0 (by simp), pfRun_zero]
    have h4 : Fl.logsumexp (fun _ : Fin 2 => (0 : Fl)) = Fl.fin (Real.log 2) := by simpa using logsumexp_zero (N := 2)
    have h5 : Fl.fin (Real.log 2) - Fl.fin (Real.log 2) = (0 : Fl) := by
      rw [Fl.fin_sub, sub_self]
      rfl
    have h6 : ∀ k : K, (zeroLogits k fun _ => (0 : Fl) : Fin 2 → Fl) = fun _ => 0 := fun _ => rfl
    simp only [stepTo, coreStep, pfInit, PFState.core, coinsModel, h6, add_zero, h4, h5]
    rw [ha]
    rfl
  have key := fun k => exact_smoother_given_filter (n := 2) h (u := ()) (us := [])
    (pfRun rng.toPrng (coinsModel rng) I zeroLogits () [()] k) (pf := pf)
    (hR.imp_right fun h => h.imp_right fun h => ⟨rfl, h⟩) inputsOf (fun _ => .ok ()) (fun _ _ _ => 0) rfl rfl
    (.inl (by
      have h1 : (pfRun rng.toPrng (coinsModel rng) I zeroLogits () [()] k 1).logWeights = fun _ => 0 :=
        congrArg (fun c => c.2.1) (hc1 k)
      change IsLogits (pfRun rng.toPrng (coinsModel rng) I zeroLogits () [()] k 1).logWeights
      rw [h1]
      exact isLogits_zero))
  choose p hp1 hp2 using key
  have hz : ∀ k, (pfRun rng.toPrng (coinsModel rng) I zeroLogits () [()] k 1).logZ = 0 := fun k =>
    congrArg (fun c => c.2.2) (hc1 k)
  refine ⟨coinsModel_density, fun k t => pfRun rng.toPrng (coinsModel rng) I zeroLogits () [()] k t, p,
    fun k => filter_pf_eq hI dummy () [()] k, hp1, hz, ?_, by rw [coins_agree h, one_div]⟩
  -- the estimate in terms of the keys
  obtain ⟨g, hg⟩ : ∃ g : Bool → Bool → Bool → ℝ, g = fun x y z => ((if x = y then 1 else 0) + 1 +
    (if x = z then 1 else 0) + (if y = z then 1 else 0)) / 4 := ⟨_, rfl⟩
  have hg0 : ∀ x y z, 0 ≤ g x y z := fun x y z => by
    rw [hg]
    dsimp only
    split_ifs <;> norm_num
  obtain ⟨G, hG⟩ : ∃ G : (Fin 3 → K) → ℝ≥0∞, G = fun b =>
    ENNReal.ofReal (g (coin rng (b 0)) (coin rng (b 1)) (coin rng (b 2))) := ⟨_, rfl⟩
  have h2 : ENNReal.ofReal ((2 : ℕ) : ℝ)⁻¹ = 2⁻¹ := by
    rw [ENNReal.ofReal_inv_of_pos (by norm_num)]
    simp
  have h1 : ∀ k, ∫⁻ k', (∑ m, if p k k' m 0 = p k k' m 1 then 1 else 0) / (2 : ℕ) ∂P = G (a k) := by
    intro k
    have h3 := hp2 k fun p => if p 0 = p 1 then 1 else 0
    have e1 : ENNReal.ofReal (pfRun rng.toPrng (coinsModel rng) I zeroLogits () [()] k (([] : List Unit).length + 1)).logZ.lik = 1 := by
      change ENNReal.ofReal (pfRun rng.toPrng (coinsModel rng) I zeroLogits () [()] k 1).logZ.lik = 1
      rw [hz]
      simp [Fl.lik]
    simp only [e1, one_mul] at h3
    rw [h3, histEst]
    simp only [List.length_nil, zero_add, hc1, backExp, hc0, Fl.zero_def, Fl.lik, Real.exp_zero, ENNReal.ofReal_one,
      one_mul]
    have e2 := nw_zero (N := 2)
    rw [Fl.zero_def] at e2
    have e3 : ∀ i j, backLaw P rng (usedDensity (fun (_ _ : Bool) (_ : Unit) => Fl.fin 0) [()] () 0)
        ((fun i : Fin 2 => coin rng (a k i.castSucc)), (fun _ : Fin 2 => Fl.fin 0), Fl.fin 0)
        (coin rng (a k (Fin.succ i))) j = 2⁻¹ := by
      intro i j
      have e4 : CanSample (fun i : Fin 2 => coin rng (a k i.castSucc)) (fun _ : Fin 2 => Fl.fin 0)
          (usedDensity (fun (_ _ : Bool) (_ : Unit) => Fl.fin 0) [()] () 0) (coin rng (a k i.succ)) :=
        ⟨fun _ => trivial, fun _ => trivial, 0, trivial, trivial⟩
      obtain ⟨e5, e6⟩ := exactLogWeights_isLogits e4
      rw [backLaw, h.categorical 2 _ e5, e6, ← h2]
      congr 1
      simp [backwardProb, usedDensity, Fl.lik]
    have e7 : ∀ i j : Fin 2, (if splice 0 (fun _ => coin rng (a k j.castSucc)) (coin rng (a k i.succ)) 0 =
        splice 0 (fun _ => coin rng (a k j.castSucc)) (coin rng (a k i.succ)) 1 then (1 : ℝ≥0∞) else 0) =
        ENNReal.ofReal (if coin rng (a k j.castSucc) = coin rng (a k i.succ) then 1 else 0) := by
      intro i j
      have e8 : splice 0 (fun _ => coin rng (a k j.castSucc)) (coin rng (a k i.succ)) 0 = coin rng (a k j.castSucc) := rfl
      have e9 : splice 0 (fun _ => coin rng (a k j.castSucc)) (coin rng (a k i.succ)) 1 = coin rng (a k i.succ) := rfl
      rw [e8, e9]
      split_ifs <;> simp
    simp only [e2, e3, e7, Fin.sum_univ_two]
    rw [hG, hg]
    have e10 : (2⁻¹ : ℝ≥0∞) = ENNReal.ofReal 2⁻¹ := by
      rw [ENNReal.ofReal_inv_of_pos (by norm_num)]
      simp
    have nn : ∀ x y : Bool, (0 : ℝ) ≤ if x = y then 1 else 0 := fun x y => by split_ifs <;> norm_num
    rw [h2, e10]
    simp only [← ENNReal.ofReal_mul (show (0 : ℝ) ≤ 2⁻¹ by norm_num)]
    rw [← ENNReal.ofReal_add (mul_nonneg (by norm_num) (nn _ _)) (mul_nonneg (by norm_num) (nn _ _)),
      ← ENNReal.ofReal_add (mul_nonneg (by norm_num) (nn _ _)) (mul_nonneg (by norm_num) (nn _ _)),
      ← ENNReal.ofReal_mul (by norm_num), ← ENNReal.ofReal_mul (by norm_num), ← ENNReal.ofReal_add]
    · congr 1
      have f0 : (Fin.castSucc (0 : Fin 2)) = (0 : Fin 3) := rfl
      have f1 : (Fin.castSucc (1 : Fin 2)) = (1 : Fin 3) := rfl
      have f2 : (Fin.succ (0 : Fin 2)) = (1 : Fin 3) := rfl
      have f3 : (Fin.succ (1 : Fin 2)) = (2 : Fin 3) := rfl
      rw [f0, f1, f2, f3, if_pos (rfl : coin rng (a k 1) = coin rng (a k 1))]
      ring
    · exact mul_nonneg (by norm_num) (add_nonneg (mul_nonneg (by norm_num) (nn _ _)) (mul_nonneg (by norm_num) (nn _ _)))
    · exact mul_nonneg (by norm_num) (add_nonneg (mul_nonneg (by norm_num) (nn _ _)) (mul_nonneg (by norm_num) (nn _ _)))
  simp only [h1]
  have hc : Measurable (coin rng) := measurable_coin h
  have hGm : Measurable G := by
    have hm0 : Measurable fun (b : Fin 3 → K) => (coin rng (b 0), coin rng (b 1), coin rng (b 2)) :=
      (hc.comp (measurable_pi_apply 0)).prodMk ((hc.comp (measurable_pi_apply 1)).prodMk
        (hc.comp (measurable_pi_apply 2)))
    have hm1 : Measurable fun q : Bool × Bool × Bool => ENNReal.ofReal (g q.1 q.2.1 q.2.2) := measurable_of_finite _
    rw [hG]
    exact hm1.comp hm0
  have h3 : MeasurePreserving a P (Measure.pi fun _ => P) := by
    rw [ha]
    exact (h.split 3).comp ((measurePreserving_eval (fun _ : Fin 2 => P) 0).comp (h.split 2))
  rw [h3.lintegral_comp hGm, lintegral_pi_three P hGm]
  have h4 : ∀ x y z : K, G ![x, y, z] = ENNReal.ofReal (g (coin rng x) (coin rng y) (coin rng z)) := fun x y z => by
    rw [hG]
    rfl
  simp only [h4]
  have e1 : ∀ x y, ∫⁻ z, ENNReal.ofReal (g (coin rng x) (coin rng y) (coin rng z)) ∂P =
      ENNReal.ofReal ((g (coin rng x) (coin rng y) true + g (coin rng x) (coin rng y) false) / 2) := fun x y =>
    coin_mean h (g (coin rng x) (coin rng y)) (hg0 _ _)
  have e2 : ∀ x, ∫⁻ y, ENNReal.ofReal ((g (coin rng x) (coin rng y) true + g (coin rng x) (coin rng y) false) / 2) ∂P =
      ENNReal.ofReal (((g (coin rng x) true true + g (coin rng x) true false) / 2 +
        (g (coin rng x) false true + g (coin rng x) false false) / 2) / 2) := fun x =>
    coin_mean h (fun y => (g (coin rng x) y true + g (coin rng x) y false) / 2)
      fun y => div_nonneg (add_nonneg (hg0 _ _ _) (hg0 _ _ _)) (by norm_num)
  have e3 := coin_mean h (fun x => ((g x true true + g x true false) / 2 + (g x false true + g x false false) / 2) / 2)
    fun x => div_nonneg (add_nonneg (div_nonneg (add_nonneg (hg0 _ _ _) (hg0 _ _ _)) (by norm_num))
      (div_nonneg (add_nonneg (hg0 _ _ _) (hg0 _ _ _)) (by norm_num))) (by norm_num)
  simp only [e1, e2]
  rw [e3, hg]
  have e4 : (5 / 8 : ℝ≥0∞) = ENNReal.ofReal (5 / 8) := by
    rw [ENNReal.ofReal_div_of_pos (by norm_num)]
    simp
  rw [e4]
  congr 1
  norm_num

end biased

end

end Cuthbert.SMC
