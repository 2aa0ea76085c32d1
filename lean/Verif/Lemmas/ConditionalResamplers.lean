import Verif.Spec.ParticleGibbs
import Verif.Props.ResamplingLaw
import Verif.Props.BackwardSampling

/-!
# Lemmas: the conditional resampling functions give conditional laws
-/

namespace Cuthbert.SMC
open MeasureTheory Set Resampling Spec
open scoped ENNReal

noncomputable section

variable {K X : Type} {N n : ℕ}

attribute [local irreducible] inverseCdf sortedUniforms

/-- The indices of conditional multinomial resampling. -/
def multinomialCondIdx [NeZero N] (rng : Rng K) (pf : Platform) (k : K) (l : Fin N → Fl) (b' b : Fin N) : Fin N → Fin N :=
  Function.update (multinomialIdx rng pf l N k) b' b

/-- The indices of conditional killing resampling. -/
def killingCondIdx [NeZero N] (rng : Rng K) (pf : Platform) (k : K) (l : Fin N → Fl) (b' b : Fin N) : Fin N → Fin N :=
  Function.update (roll (killingIdx rng pf l (rng.nth k 2 0))
    (((b' : ℕ) : ℤ) - (((rng.choice (rng.nth k 2 1) N (pivotWeights l N b) : Fin N) : ℕ) : ℤ))) b' b

/-- The indices of conditional systematic resampling. -/
def systematicCondIdx [NeZero N] (rng : Rng K) (pf : Platform) (k : K) (l : Fin N → Fl) (b' b : Fin N) : Fin N → Fin N :=
  roll (fun m => (roll id (-((b : ℕ) : ℤ)) : Fin N → Fin N)
    (systematicConditional00 pf (rng.uniform k 3 0) (rng.uniform k 3 1) (rng.uniform k 3 2)
      (roll (fun i => l i - Fl.logsumexp l) (-((b : ℕ) : ℤ))) b'.pos m)) (b' : ℕ)

theorem condUses_multinomial [NeZero N] (rng : Rng K) (pf : Platform) :
    CondUses (X := X) (N := N) (multinomialConditional rng pf) (multinomialCondIdx rng pf) := fun k l pos b' b => by
  rw [multinomialConditional, multinomial_eq]
  rfl

theorem condUses_killing [NeZero N] (rng : Rng K) (pf : Platform) :
    CondUses (X := X) (N := N) (killingConditional rng pf) (killingCondIdx rng pf) := fun k l pos b' b => by
  rw [killingConditional, killing_eq]
  rfl

theorem condUses_systematic [NeZero N] (rng : Rng K) (pf : Platform) :
    CondUses (X := X) (N := N) (systematicConditional rng pf) (systematicCondIdx rng pf) := fun _ _ _ _ _ => rfl

section law

variable [MeasurableSpace K] {P : Measure K} {rng : Rng K}

/-- From the law of shifted indices to a conditional law. -/
theorem conditionalLaw_of_shifted [NeZero N] {idx : K → (Fin N → Fl) → Fin N → Fin N}
    {I : K → (Fin N → Fl) → Fin N → Fin N → Fin N → Fin N}
    (hm : ∀ b' b, Measurable fun q : K × (Fin N → Fl) => I q.1 q.2 b' b)
    (hmean : ∀ l, IsLogits l → ∀ i, ∑ m, P {k | idx k l m = i} = N * ENNReal.ofReal (nw l i))
    (hlaw : ∀ l, IsLogits l → ∀ b' b, 0 < nw l b → ∀ a, P {k | I k l b' b = a} * ENNReal.ofReal (nw l b) =
      shiftedLaw P (fun k => idx k l) {c | c = a ∧ c b' = b}) : ConditionalLaw P I where
  measurable := hm
  law := by
    refine ⟨fun l a => shiftedLaw P (fun k => idx k l) {c | c = a}, fun l hl b' b a => ?_⟩
    rcases (nw_nonneg l b).eq_or_lt with hw | hw
    · rw [← hw, ENNReal.ofReal_zero, zero_mul]
      split_ifs with hab
      · have h1 : shiftedLaw P (fun k => idx k l) {c | c b' = b} = 0 := by
          rw [shiftedLaw_slot, hmean l hl b, ← hw, ENNReal.ofReal_zero, mul_zero, mul_zero]
        have h2 : shiftedLaw P (fun k => idx k l) {c | c = a} ≤ shiftedLaw P (fun k => idx k l) {c | c b' = b} := by
          rw [shiftedLaw, shiftedLaw]
          refine mul_le_mul_right (Finset.sum_le_sum fun s _ => measure_mono fun k hk => ?_) _
          have h3 : (fun j => idx k l (j - s)) = a := hk
          change (fun j => idx k l (j - s)) b' = b
          rw [h3, hab]
        exact (le_antisymm (h2.trans h1.le) (by simp)).symm
      · rfl
    · rw [mul_comm, hlaw l hl b' b hw a]
      split_ifs with hab
      · congr 1
        ext c
        simp only [mem_ofPred_eq]
        exact ⟨fun h => h.1, fun h => ⟨h, by rw [h, hab]⟩⟩
      · have h1 : {c : Fin N → Fin N | c = a ∧ c b' = b} = ∅ := by
          ext c
          simp only [mem_ofPred_eq, mem_empty_iff_false, iff_false, not_and]
          rintro rfl
          exact hab
        rw [h1, shiftedLaw]
        simp

theorem conditionalLaw_multinomial [NeZero N] (h : IdealRng rng P) (pf : Platform) :
    ConditionalLaw P (multinomialCondIdx (N := N) rng pf) where
  measurable b' b := by
    have h1 : Measurable fun a : Fin N → Fin N => Function.update a b' b := measurable_of_finite _
    exact h1.comp (measurable_multinomialIdx h pf)
  law := by
    refine ⟨fun l a => P {k | multinomialIdx rng pf l N k = a}, fun l hl b' b a => ?_⟩
    obtain ⟨R, C, hR, hC, h1, h2⟩ := multinomial_conditional_law h pf hl (fun i => i) N b' b
    have hR' : ∀ k, R k = _ := fun k => Except.ok.inj ((hR k).symm.trans (multinomial_eq rng pf k l _ N))
    have hC' : ∀ k, C k = _ := fun k => Except.ok.inj ((hC k).symm.trans (condUses_multinomial rng pf k l _ b' b))
    have h3 := h2 a
    rw [h1] at h3
    simp only [hR', hC'] at h3
    rw [mul_comm, h3]
    split_ifs with hab
    · congr 1
      ext k
      simp only [mem_ofPred_eq]
      exact ⟨fun h => h.1, fun h => ⟨h, by rw [h, hab]⟩⟩
    · have h4 : {k | multinomialIdx rng pf l N k = a ∧ multinomialIdx rng pf l N k b' = b} = ∅ := by
        ext k
        simp only [mem_ofPred_eq, mem_empty_iff_false, iff_false, not_and]
        intro h5 h6
        exact hab (by rw [← h5, h6])
      rw [h4, measure_empty]

theorem measurable_log1mexp : Measurable log1mexp := by
  have h1 : Measurable fun x : Fl => Fl.fin 1 - Fl.exp x := (measurable_const (a := Fl.fin 1)).fl_sub Fl.measurable_exp
  exact Fl.measurable_log.comp h1

theorem measurable_update_entry {Ω Y : Type*} [MeasurableSpace Ω] [MeasurableSpace Y] {f : Ω → Fin N → Y} (hf : Measurable f)
    (b : Fin N) {g : Ω → Y} (hg : Measurable g) : Measurable fun ω => Function.update (f ω) b (g ω) := by
  refine measurable_pi_iff.mpr fun m => ?_
  by_cases hm : m = b
  · subst hm
    simp only [Function.update_self]
    exact hg
  · simp only [Function.update_of_ne hm]
    exact (measurable_pi_apply m).comp hf

theorem measurable_pivotWeights (b : Fin N) : Measurable fun l : Fin N → Fl => pivotWeights l n b := by
  have h1 : Measurable fun l : Fin N → Fl => fun i => log1mexp (l i - Fl.vmax l) - Fl.log (Fl.fin n) :=
    measurable_pi_iff.mpr fun i => (measurable_log1mexp.comp ((measurable_pi_apply i).fl_sub Fl.measurable_vmax)).fl_sub
      measurable_const
  have h2 := measurable_update_entry h1 b (measurable_const (a := Fl.ninf))
  have h3 : Measurable fun l : Fin N → Fl => log1mexp (Fl.logsumexp
      (Function.update (fun i => log1mexp (l i - Fl.vmax l) - Fl.log (Fl.fin n)) b Fl.ninf)) :=
    measurable_log1mexp.comp (Fl.measurable_logsumexp.comp h2)
  have h4 := measurable_update_entry h2 b h3
  refine measurable_pi_iff.mpr fun i => ?_
  exact Fl.measurable_exp.comp (((measurable_pi_apply i).comp h4).fl_sub (Fl.measurable_logsumexp.comp h4))

theorem conditionalLaw_killing [NeZero N] (h : IdealRng rng P) (pf : Platform) :
    ConditionalLaw P (killingCondIdx (N := N) rng pf) := by
  refine conditionalLaw_of_shifted (idx := fun k l => killingIdx rng pf l k) (fun b' b => ?_)
    (fun l hl i => ?_) fun l hl b' b hw a => ?_
  · have h1 : Measurable fun q : (Fin N → Fin N) × Fin N =>
        Function.update (roll q.1 (((b' : ℕ) : ℤ) - ((q.2 : ℕ) : ℤ))) b' b := measurable_of_finite _
    have h2 : Measurable fun q : K × (Fin N → Fl) => (rng.nth q.1 2 0, q.2) :=
      ((h.measurable_nth 2 0).comp measurable_fst).prodMk measurable_snd
    have h3 : Measurable fun q : K × (Fin N → Fl) => killingIdx rng pf q.2 (rng.nth q.1 2 0) :=
      (measurable_killingIdx h pf).comp h2
    have h4 : Measurable fun q : K × (Fin N → Fl) => (rng.nth q.1 2 1, pivotWeights q.2 N b) :=
      ((h.measurable_nth 2 1).comp measurable_fst).prodMk ((measurable_pivotWeights b).comp measurable_snd)
    have h5 : Measurable fun q : K × (Fin N → Fl) => rng.choice (rng.nth q.1 2 1) N (pivotWeights q.2 N b) :=
      (h.choice_measurable N).comp h4
    exact h1.comp (h3.prodMk h5)
  · obtain ⟨R, h1, -, h3, h4⟩ := killing_unbiased h pf hl (fun i => i)
    have h4' := h4 i
    rw [lintegral_copies h3] at h4'
    rw [← h4']
    refine Finset.sum_congr rfl fun m _ => ?_
    have h5 : ∀ k, R k = _ := fun k => Except.ok.inj ((h1 k).symm.trans (killing_eq rng pf k l _))
    simp only [h5]
  · obtain ⟨R, C, hR, hC, h1, h2⟩ := killing_conditional_law h pf hl (fun i => i) b' b hw
    have hR' : ∀ k, R k = _ := fun k => Except.ok.inj ((hR k).symm.trans (killing_eq rng pf k l _))
    have hC' : ∀ k, C k = _ := fun k => Except.ok.inj ((hC k).symm.trans (condUses_killing rng pf k l _ b' b))
    have h3 := h2 a
    rw [h1] at h3
    simp only [hR', hC'] at h3
    exact h3

theorem measurable_conditionalUniform (n : ℕ) {Ω : Type*} [MeasurableSpace Ω] {w : Ω → Fl} (hw : Measurable w) {U V : Ω → ℝ}
    (hU : Measurable U) (hV : Measurable V) : Measurable fun ω => conditionalUniform n (w ω) (U ω) (V ω) := by
  have hfloor : Measurable Fl.floor := Fl.measurable_unary _ (Fl.measurable_fin.comp
    ((measurable_of_countable (fun z : ℤ => (z : ℝ))).comp Int.measurable_floor))
  have ht : Measurable fun ω => Fl.fin n * w ω := Fl.measurable_mul.comp (measurable_const.prodMk hw)
  have htf : Measurable fun ω => (Fl.fin n * w ω).floor := hfloor.comp ht
  have hrem := ht.fl_sub htf
  have hu : Measurable fun ω => Fl.fin (U ω) := Fl.measurable_fin.comp hU
  have hv : Measurable fun ω => Fl.fin (V ω) := Fl.measurable_fin.comp hV
  have h1 : Measurable fun ω => (Fl.fin n * w ω).floor + Fl.fin 1 := Fl.measurable_add.comp (htf.prodMk measurable_const)
  have h2 : Measurable fun ω => (Fl.fin n * w ω - (Fl.fin n * w ω).floor) * ((Fl.fin n * w ω).floor + Fl.fin 1) :=
    Fl.measurable_mul.comp (hrem.prodMk h1)
  have hp : Measurable fun ω => (Fl.fin n * w ω - (Fl.fin n * w ω).floor) * ((Fl.fin n * w ω).floor + Fl.fin 1) /
      (Fl.fin n * w ω) := Fl.measurable_div.comp (h2.prodMk ht)
  have c1 : Measurable fun ω => Fl.leb (Fl.fin n * w ω) (Fl.fin 1) :=
    Fl.measurable_leb.comp (ht.prodMk measurable_const)
  have c2 : Measurable fun ω => Fl.ltb (Fl.fin (V ω)) ((Fl.fin n * w ω - (Fl.fin n * w ω).floor) *
      ((Fl.fin n * w ω).floor + Fl.fin 1) / (Fl.fin n * w ω)) := Fl.measurable_ltb.comp (hv.prodMk hp)
  have r1 : Measurable fun ω => Fl.fin n * w ω * Fl.fin (U ω) := Fl.measurable_mul.comp (ht.prodMk hu)
  have r2 : Measurable fun ω => (Fl.fin n * w ω - (Fl.fin n * w ω).floor) * Fl.fin (U ω) :=
    Fl.measurable_mul.comp (hrem.prodMk hu)
  have r3 : Measurable fun ω => (Fl.fin 1 - (Fl.fin n * w ω - (Fl.fin n * w ω).floor)) * Fl.fin (U ω) :=
    Fl.measurable_mul.comp (((measurable_const (a := Fl.fin 1)).fl_sub hrem).prodMk hu)
  have r4 : Measurable fun ω => Fl.fin n * w ω - (Fl.fin n * w ω).floor +
      (Fl.fin 1 - (Fl.fin n * w ω - (Fl.fin n * w ω).floor)) * Fl.fin (U ω) := Fl.measurable_add.comp (hrem.prodMk r3)
  exact Measurable.ite (c1 (measurableSet_singleton true)) r1 (Measurable.ite (c2 (measurableSet_singleton true)) r2 r4)

theorem measurable_systematicConditional00 [NeZero N] (pf : Platform) (hn : 0 < n) {Ω : Type*} [MeasurableSpace Ω]
    {U V W : Ω → ℝ} (hU : Measurable U) (hV : Measurable V) (hW : Measurable W) {l : Ω → Fin N → Fl} (hl : Measurable l) :
    Measurable fun ω => systematicConditional00 (n := n) pf (U ω) (V ω) (W ω) (l ω) hn := by
  have h1 : Measurable fun ω => Resampling.weights (l ω) 0 :=
    (measurable_pi_apply 0).comp (measurable_weights.comp hl)
  have h2 := measurable_conditionalUniform n h1 hU hV
  have h3 : Measurable fun ω => fun m : Fin n =>
      (Fl.fin m + conditionalUniform n (Resampling.weights (l ω) 0) (U ω) (V ω)) / Fl.fin n :=
    measurable_pi_iff.mpr fun m => by
      have h4 : Measurable fun ω => Fl.fin ((m : ℕ) : ℝ) + conditionalUniform n (Resampling.weights (l ω) 0) (U ω) (V ω) :=
        Fl.measurable_add.comp (measurable_const.prodMk h2)
      exact Fl.measurable_div.comp (h4.prodMk measurable_const)
  have h4 : Measurable fun ω => inverseCdf pf (fun m : Fin n =>
      (Fl.fin m + conditionalUniform n (Resampling.weights (l ω) 0) (U ω) (V ω)) / Fl.fin n) (l ω) :=
    (measurable_inverseCdf pf).comp (h3.prodMk hl)
  have h5 : Measurable fun q : ℝ × (Fin n → Fin N) =>
      if (Finset.univ.filter fun m => q.2 m = 0).card = 1 then q.2
        else roll q.2 (-(readClamped (flatnonzero fun m => decide (q.2 m = 0)) hn
          ⌊((Finset.univ.filter fun m => q.2 m = 0).card : ℝ) * q.1⌋.toNat)) := by
    refine measurable_from_prod_countable_left fun idx => ?_
    dsimp only
    by_cases hc : (Finset.univ.filter fun m => idx m = 0).card = 1
    · simp only [if_pos hc]
      exact measurable_const
    · simp only [if_neg hc]
      have h6 : Measurable fun w : ℝ => ⌊((Finset.univ.filter fun m => idx m = 0).card : ℝ) * w⌋ :=
        Int.measurable_floor.comp (measurable_id.const_mul _)
      have h7 : Measurable fun z : ℤ => roll idx (-(readClamped (flatnonzero fun m => decide (idx m = 0)) hn z.toNat)) :=
        measurable_of_countable _
      exact h7.comp h6
  exact h5.comp (hW.prodMk h4)

theorem conditionalLaw_systematic [NeZero N] (h : IdealRng rng P) (pf : Platform) :
    ConditionalLaw P (systematicCondIdx (N := N) rng pf) := by
  refine conditionalLaw_of_shifted (idx := fun k l => systematicIdx rng pf l N k) (fun b' b => ?_)
    (fun l hl i => systematicIdx_mean h pf hl i) fun l hl b' b hw a => ?_
  · have h1 : Measurable fun a : Fin N → Fin N => roll (fun m => (roll id (-((b : ℕ) : ℤ)) : Fin N → Fin N) (a m))
        ((b' : ℕ) : ℤ) := measurable_of_finite _
    have hu : ∀ i : Fin 3, Measurable fun q : K × (Fin N → Fl) => rng.uniform q.1 3 i := fun i =>
      (measurable_pi_apply i).comp ((h.uniform 3).measurable.comp measurable_fst)
    have hl : Measurable fun q : K × (Fin N → Fl) => roll (fun i => q.2 i - Fl.logsumexp q.2) (-((b : ℕ) : ℤ)) := by
      refine measurable_pi_iff.mpr fun m => ?_
      exact ((measurable_pi_apply _).comp measurable_snd).fl_sub (Fl.measurable_logsumexp.comp measurable_snd)
    exact h1.comp (measurable_systematicConditional00 pf b'.pos (hu 0) (hu 1) (hu 2) hl)
  · obtain ⟨R, C, hR, hC, h1, h2⟩ := systematic_conditional_law h pf hl (fun i => i) N b' b hw
    have hR' : ∀ k, R k = _ := fun k => Except.ok.inj ((hR k).symm.trans (systematic_eq rng pf k l _ N))
    have hC' : ∀ k, C k = _ := fun k => Except.ok.inj ((hC k).symm.trans (condUses_systematic rng pf k l _ b' b))
    have h3 := h2 a
    rw [h1] at h3
    simp only [hR', hC'] at h3
    exact h3

end law

end

end Cuthbert.SMC
