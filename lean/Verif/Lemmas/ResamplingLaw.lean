import Mathlib.Algebra.BigOperators.Ring.Finset
import Verif.Lemmas.SortedUniforms

/-!
# Laws of the resampled indices
-/

namespace Cuthbert
open MeasureTheory Set
open scoped ENNReal Nat

noncomputable section

instance (n : ℕ) : MeasurableSpace (Equiv.Perm (Fin n)) := ⊤
instance (n : ℕ) : DiscreteMeasurableSpace (Equiv.Perm (Fin n)) := ⟨fun _ => trivial⟩

variable {K X : Type*} [MeasurableSpace K] {N n : ℕ}

/-- The expectation of a random variable with finitely many values. -/
theorem lintegral_finite {Ω ι : Type*} [MeasurableSpace Ω] [Fintype ι] {P : Measure Ω} {f : Ω → ι}
    (hf : ∀ i, MeasurableSet {x | f x = i}) (G : ι → ℝ≥0∞) :
    ∫⁻ x, G (f x) ∂P = ∑ i, P {x | f x = i} * G i := by
  classical
  have h : ∀ x, G (f x) = ∑ i, {x | f x = i}.indicator (fun _ => G i) x := by
    intro x
    rw [Finset.sum_eq_single (f x)]
    · simp
    · intro i _ hi
      exact indicator_of_notMem (fun h => hi (h : f x = i).symm) _
    · simp
  simp only [h]
  rw [lintegral_finsetSum' _ fun i _ => (measurable_const.indicator (hf i)).aemeasurable]
  refine Finset.sum_congr rfl fun i _ => ?_
  rw [lintegral_indicator_const (hf i), mul_comm]

/-- The expectation of a product of functions of independent variables. -/
theorem lintegral_pi_prod {α : Type*} [MeasurableSpace α] (μ : Measure α) [SigmaFinite μ] :
    ∀ (n : ℕ) {f : Fin n → α → ℝ≥0∞}, (∀ i, Measurable (f i)) →
      ∫⁻ x, ∏ i, f i (x i) ∂(Measure.pi fun _ : Fin n => μ) = ∏ i, ∫⁻ y, f i y ∂μ
  | 0, f, _ => by
    simp only [Finset.univ_eq_empty, Finset.prod_empty]
    rw [lintegral_const, one_mul, Measure.pi_univ]
    simp
  | n + 1, f, hf => by
    have hm : Measurable fun x : Fin (n + 1) → α => ∏ i, f i (x i) :=
      Finset.measurable_prod _ fun i _ => (hf i).comp (measurable_pi_apply i)
    rw [lintegral_pi_cons μ hm]
    simp only [Fin.prod_univ_succ, Fin.cons_zero, Fin.cons_succ]
    have hr : Measurable fun y : Fin n → α => ∏ i : Fin n, f i.succ (y i) :=
      Finset.measurable_prod _ fun i _ => (hf i.succ).comp (measurable_pi_apply i)
    simp only [lintegral_const_mul _ hr]
    rw [lintegral_mul_const _ (hf 0), lintegral_pi_prod μ n fun i => hf i.succ]

section split

variable {rng : Rng K} {P : Measure K} (h : IdealRng rng P)

include h

/-- Splitting a fresh key. -/
theorem IdealRng.lintegral_split (n : ℕ) {F : (Fin n → K) → ℝ≥0∞} (hF : Measurable F) :
    ∫⁻ k, F (fun i => rng.nth k n i) ∂P = ∫⁻ ks, F ks ∂(Measure.pi fun _ => P) :=
  (h.split n).lintegral_comp hF

/-- Splitting a fresh key into two. -/
theorem IdealRng.lintegral_split_two {F : K × K → ℝ≥0∞} (hF : Measurable F) :
    ∫⁻ k, F (rng.nth k 2 0, rng.nth k 2 1) ∂P = ∫⁻ a, ∫⁻ b, F (a, b) ∂P ∂P := by
  have := h.prob
  have hF2 : Measurable fun ks : Fin 2 → K => F (ks 0, ks 1) :=
    hF.comp ((measurable_pi_apply 0).prodMk (measurable_pi_apply 1))
  rw [h.lintegral_split 2 hF2, lintegral_pi_cons P hF2]
  refine lintegral_congr fun a => ?_
  rw [lintegral_pi_cons P]
  · refine lintegral_congr fun b => ?_
    rw [Measure.pi_of_empty _ (fun i => i.elim0), lintegral_dirac]
    rfl
  · exact hF2.comp (measurable_cons.comp (measurable_const.prodMk measurable_id))

theorem IdealRng.measurable_nth (n : ℕ) (i : Fin n) : Measurable fun k => rng.nth k n i :=
  (measurable_pi_apply i).comp (h.split n).measurable

theorem IdealRng.measurable_perm (n : ℕ) : Measurable fun k => rng.permutation k n :=
  measurable_to_countable' fun σ => h.permutation_measurable n σ

theorem IdealRng.lintegral_perm (n : ℕ) (G : Equiv.Perm (Fin n) → ℝ≥0∞) :
    ∫⁻ k, G (rng.permutation k n) ∂P = ∑ σ, (n ! : ℝ≥0∞)⁻¹ * G σ := by
  rw [lintegral_finite (h.permutation_measurable n)]
  simp only [h.permutation]

end split

namespace Resampling

variable [NeZero N]

/-- The indices of multinomial resampling. -/
def multinomialIdx (rng : Rng K) (pf : Platform) (l : Fin N → Fl) (n : ℕ) (k : K) : Fin n → Fin N :=
  fun m => inverseCdf pf (sortedUniforms (rng.uniform (rng.nth k 2 0) (n + 1))) l
    (rng.permutation (rng.nth k 2 1) n m)

omit [MeasurableSpace K] in
theorem multinomial_eq (rng : Rng K) (pf : Platform) (k : K) (l : Fin N → Fl) (pos : Fin N → X)
    (n : ℕ) : multinomial rng pf k l pos n =
      .ok ⟨multinomialIdx rng pf l n k, fun _ => 0, fun m => pos (multinomialIdx rng pf l n k m)⟩ :=
  rfl

omit [NeZero N] in
theorem measurable_sortedUniforms : Measurable (sortedUniforms : (Fin (n + 1) → ℝ) → Fin n → Fl) := by
  refine measurable_pi_iff.mpr fun m => ?_
  have hz : Measurable fun us : Fin (n + 1) → ℝ => cumsum fun i => -Fl.log (Fl.fin (us i)) := by
    refine measurable_cumsum.comp (measurable_pi_iff.mpr fun i => ?_)
    exact (Fl.measurable_log.comp (Fl.measurable_fin.comp (measurable_pi_apply i))).neg
  have h1 : Measurable fun us : Fin (n + 1) → ℝ =>
      (cumsum (fun i => -Fl.log (Fl.fin (us i))) m.castSucc,
        cumsum (fun i => -Fl.log (Fl.fin (us i))) (Fin.last n)) :=
    ((measurable_pi_apply _).comp hz).prodMk ((measurable_pi_apply _).comp hz)
  exact Fl.measurable_div.comp h1

attribute [local irreducible] inverseCdf sortedUniforms

/-- The indices before shuffling, jointly measurable in the draws and the log-weights. -/
theorem measurable_sortedIdx (pf : Platform) :
    Measurable fun q : (Fin (n + 1) → ℝ) × (Fin N → Fl) =>
      inverseCdf pf (sortedUniforms q.1) q.2 := by
  have h1 : Measurable fun q : (Fin (n + 1) → ℝ) × (Fin N → Fl) => (sortedUniforms q.1, q.2) :=
    (measurable_sortedUniforms.comp measurable_fst).prodMk measurable_snd
  exact (measurable_inverseCdf pf).comp h1

omit [NeZero N] in
theorem measurable_reindex :
    Measurable fun q : Equiv.Perm (Fin n) × (Fin n → Fin N) => fun m => q.2 (q.1 m) :=
  measurable_from_prod_countable_right fun σ =>
    measurable_pi_iff.mpr fun m => measurable_pi_apply (σ m)

section law

variable {rng : Rng K} {P : Measure K} (h : IdealRng rng P)

include h

theorem measurable_multinomialIdx (pf : Platform) :
    Measurable fun q : K × (Fin N → Fl) => multinomialIdx rng pf q.2 n q.1 := by
  have h0 : Measurable fun q : K × (Fin N → Fl) => rng.uniform (rng.nth q.1 2 0) (n + 1) :=
    (h.uniform (n + 1)).measurable.comp ((h.measurable_nth 2 0).comp measurable_fst)
  have h1 : Measurable fun q : K × (Fin N → Fl) =>
      inverseCdf pf (sortedUniforms (rng.uniform (rng.nth q.1 2 0) (n + 1))) q.2 :=
    (measurable_sortedIdx pf).comp (h0.prodMk measurable_snd)
  have h2 : Measurable fun q : K × (Fin N → Fl) => rng.permutation (rng.nth q.1 2 1) n :=
    (h.measurable_perm n).comp ((h.measurable_nth 2 1).comp measurable_fst)
  exact measurable_reindex.comp (h2.prodMk h1)

/-- The indices of multinomial resampling are independent draws from the weights. -/
theorem multinomialIdx_law (pf : Platform) {l : Fin N → Fl} (hl : IsLogits l)
    (G : (Fin n → Fin N) → ℝ≥0∞) :
    ∫⁻ k, G (multinomialIdx rng pf l n k) ∂P =
      ∑ a, (∏ m, ENNReal.ofReal (nw l (a m))) * G a := by
  have := h.prob
  have hG : Measurable G := measurable_of_finite G
  obtain ⟨S, hS⟩ : ∃ S : (Fin (n + 1) → ℝ) → Fin n → Fin N,
    S = fun us => inverseCdf pf (sortedUniforms us) l := ⟨_, rfl⟩
  have hSm : Measurable S := by
    rw [hS]
    exact (measurable_sortedIdx pf).comp (measurable_id.prodMk measurable_const)
  -- the two keys
  have hF : Measurable fun q : K × K => G fun m => S (rng.uniform q.1 (n + 1))
      (rng.permutation q.2 n m) := by
    have h1 : Measurable fun q : K × K => S (rng.uniform q.1 (n + 1)) :=
      hSm.comp ((h.uniform (n + 1)).measurable.comp measurable_fst)
    have h2 : Measurable fun q : K × K => rng.permutation q.2 n :=
      (h.measurable_perm n).comp measurable_snd
    exact hG.comp (measurable_reindex.comp (h2.prodMk h1))
  have h1 : ∫⁻ k, G (multinomialIdx rng pf l n k) ∂P =
      ∫⁻ a, ∫⁻ b, G (fun m => S (rng.uniform a (n + 1)) (rng.permutation b n m)) ∂P ∂P := by
    rw [← h.lintegral_split_two hF, hS]
    rfl
  rw [h1]
  have h2 : ∀ a, ∫⁻ b, G (fun m => S (rng.uniform a (n + 1)) (rng.permutation b n m)) ∂P =
      ∑ σ : Equiv.Perm (Fin n), (n ! : ℝ≥0∞)⁻¹ * G fun m => S (rng.uniform a (n + 1)) (σ m) :=
    fun a => h.lintegral_perm n fun σ => G fun m => S (rng.uniform a (n + 1)) (σ m)
  simp only [h2]
  have hσ : ∀ σ : Equiv.Perm (Fin n), Measurable fun us : Fin (n + 1) → ℝ => G fun m => S us (σ m) :=
    fun σ => hG.comp (measurable_pi_iff.mpr fun m => (measurable_pi_apply (σ m)).comp hSm)
  rw [(h.uniform (n + 1)).lintegral_comp (f := fun us => ∑ σ : Equiv.Perm (Fin n),
    (n ! : ℝ≥0∞)⁻¹ * G fun m => S us (σ m))
    (Finset.measurable_sum _ fun σ _ => (hσ σ).const_mul _)]
  rw [lintegral_finsetSum' _ fun σ _ => ((hσ σ).const_mul _).aemeasurable]
  -- the cells
  have hcell : Measurable fun x : Fin n → ℝ => G fun m => cell pf l (x m) :=
    hG.comp (measurable_pi_iff.mpr fun m => (measurable_cell' pf l).comp (measurable_pi_apply m))
  have hae : ∀ᵐ us ∂(Measure.pi fun _ : Fin (n + 1) => unif), ∀ i, 0 < us i ∧ us i < 1 := by
    rw [ae_all_iff]
    intro i
    exact (measurePreserving_eval (fun _ : Fin (n + 1) => unif) i).quasiMeasurePreserving.ae unif_ae
  have h3 : ∀ σ : Equiv.Perm (Fin n), ∫⁻ us, (n ! : ℝ≥0∞)⁻¹ * G (fun m => S us (σ m))
        ∂(Measure.pi fun _ => unif) =
      (n ! : ℝ≥0∞)⁻¹ * ∫⁻ us, G (fun m => cell pf l
        (expSums us (σ m).castSucc / expSums us (Fin.last n))) ∂(Measure.pi fun _ => unif) := by
    intro σ
    rw [lintegral_const_mul _ (hσ σ)]
    congr 1
    refine lintegral_congr_ae (hae.mono fun us hus => ?_)
    have h4 : ∀ m, S us m = cell pf l (expSums us m.castSucc / expSums us (Fin.last n)) := by
      intro m
      have hm := sortedUniforms_mem (fun i => (hus i).1) (fun i => (hus i).2) m
      rw [hS]
      refine (sorted_idx pf hl (fun i => (hus i).1) (fun i => (hus i).2) m _).mpr ?_
      exact (cell_iff pf hl hm.1 hm.2 _).mp rfl
    simp only [h4]
  simp only [h3]
  rw [lintegral_shuffled (G := fun x => G fun m => cell pf l (x m)) hcell,
    lintegral_finite (f := fun x : Fin n → ℝ => fun m => cell pf l (x m))]
  · refine Finset.sum_congr rfl fun a _ => ?_
    congr 1
    rw [show {x : Fin n → ℝ | (fun m => cell pf l (x m)) = a} =
      Set.pi univ fun m => {u | cell pf l u = a m} by ext x; simp [funext_iff], Measure.pi_pi]
    exact Finset.prod_congr rfl fun m _ => cell_law pf hl (a m)
  · intro a
    exact (measurable_pi_iff.mpr fun m => (measurable_cell' pf l).comp (measurable_pi_apply m))
      (measurableSet_singleton a)

omit h [MeasurableSpace K] [NeZero N] in
/-- The expectation of a function of one coordinate of independent coordinates. -/
theorem sum_prod_slot {q : Fin n → Fin N → ℝ≥0∞} (hq : ∀ m, ∑ b, q m b = 1) (m : Fin n)
    (G : Fin N → ℝ≥0∞) : ∑ a : Fin n → Fin N, (∏ j, q j (a j)) * G (a m) = ∑ b, q m b * G b := by
  have h1 : ∀ j : Fin n, ∑ i, q j i * (if j = m then G i else 1) =
      if j = m then ∑ i, q m i * G i else 1 := by
    intro j
    split_ifs with hj
    · rw [hj]
    · simp only [mul_one, hq]
  have h2 : ∏ j : Fin n, (if j = m then ∑ i, q m i * G i else 1) = ∑ i, q m i * G i := by
    rw [Finset.prod_ite_eq' Finset.univ m]
    simp
  rw [← h2, ← Finset.prod_congr rfl fun j _ => h1 j, Finset.prod_univ_sum]
  simp only [Fintype.piFinset_univ, Finset.prod_mul_distrib]
  refine Finset.sum_congr rfl fun a _ => ?_
  rw [Finset.prod_ite_eq' Finset.univ m fun j => G (a j)]
  simp

/-- The law of the index in one slot under multinomial resampling. -/
theorem multinomialIdx_slot (pf : Platform) {l : Fin N → Fl} (hl : IsLogits l) (m : Fin n)
    (G : Fin N → ℝ≥0∞) :
    ∫⁻ k, G (multinomialIdx rng pf l n k m) ∂P = ∑ i, ENNReal.ofReal (nw l i) * G i := by
  rw [multinomialIdx_law h pf hl fun a => G (a m)]
  refine sum_prod_slot (q := fun _ i => ENNReal.ofReal (nw l i)) (fun _ => ?_) m G
  rw [← ENNReal.ofReal_sum_of_nonneg fun i _ => nw_nonneg l i, nw_sum hl, ENNReal.ofReal_one]

/-! ### Killing -/

omit h in
/-- Whether particle `m` survives the draw `u`. -/
def surv (l : Fin N → Fl) (m : Fin N) (u : ℝ) : Bool :=
  Fl.leb (Fl.log (Fl.fin u)) (l m - Fl.vmax l)

omit h [MeasurableSpace K] [NeZero N] in
theorem measurable_surv (m : Fin N) :
    Measurable fun q : ℝ × (Fin N → Fl) => surv q.2 m q.1 := by
  have h1 : Measurable fun q : ℝ × (Fin N → Fl) => Fl.log (Fl.fin q.1) :=
    Fl.measurable_log.comp (Fl.measurable_fin.comp measurable_fst)
  have h2 : Measurable fun q : ℝ × (Fin N → Fl) => q.2 m - Fl.vmax q.2 :=
    ((measurable_pi_apply m).comp measurable_snd).fl_sub (Fl.measurable_vmax.comp measurable_snd)
  exact Fl.measurable_leb.comp (h1.prodMk h2)

omit h in
/-- The indices of killing resampling. -/
def killingIdx (rng : Rng K) (pf : Platform) (l : Fin N → Fl) (k : K) : Fin N → Fin N :=
  fun m => if surv l m (rng.uniform (rng.nth k 2 0) N m) then m
    else multinomialIdx rng pf l N (rng.nth k 2 1) m

omit h [MeasurableSpace K] in
theorem killing_eq (rng : Rng K) (pf : Platform) (k : K) (l : Fin N → Fl) (pos : Fin N → X) :
    killing rng pf k l pos N =
      .ok ⟨killingIdx rng pf l k, fun _ => 0, fun m => pos (killingIdx rng pf l k m)⟩ := by
  rw [killing]
  simp only [dif_pos]
  rfl

omit h [MeasurableSpace K] in
theorem nwMax_pos {l : Fin N → Fl} (hl : IsLogits l) : 0 < nwMax l := by
  obtain ⟨i, hi⟩ := hl.2
  have : 0 < nw l i := div_pos (Fl.lik_pos hi) (sum_lik_pos hl)
  exact this.trans_le (Finset.le_sup' (nw l) (Finset.mem_univ i))

omit h [MeasurableSpace K] in
theorem nw_div_nwMax_mem {l : Fin N → Fl} (hl : IsLogits l) (i : Fin N) :
    0 ≤ nw l i / nwMax l ∧ nw l i / nwMax l ≤ 1 :=
  ⟨div_nonneg (nw_nonneg l i) (nwMax_pos hl).le,
    (div_le_one (nwMax_pos hl)).mpr (Finset.le_sup' (nw l) (Finset.mem_univ i))⟩

omit h [MeasurableSpace K] in
theorem surv_ae {l : Fin N → Fl} (hl : IsLogits l) (m : Fin N) :
    ∀ᵐ u ∂unif, (surv l m u = true ↔ u ∈ Ioc 0 (nw l m / nwMax l)) :=
  unif_ae.mono fun u hu => by
    have := survived_iff hl (us := fun _ => u) m hu.1
    rw [show surv l m u = survived (fun _ => u) l m from rfl, this]
    exact ⟨fun h => ⟨hu.1, h⟩, fun h => h.2⟩

omit h [MeasurableSpace K] in
theorem surv_law {l : Fin N → Fl} (hl : IsLogits l) (m : Fin N) :
    unif {u | surv l m u = true} = ENNReal.ofReal (nw l m / nwMax l) ∧
      unif {u | surv l m u = false} = ENNReal.ofReal (1 - nw l m / nwMax l) := by
  have hs := nw_div_nwMax_mem hl m
  have h1 : unif {u | surv l m u = true} = ENNReal.ofReal (nw l m / nwMax l) := by
    have hae : {u | surv l m u = true} =ᵐ[unif] Ioc 0 (nw l m / nwMax l) :=
      (surv_ae hl m).mono fun u hu => propext hu
    rw [measure_congr hae, unif_Ioc le_rfl hs.2, sub_zero]
  refine ⟨h1, ?_⟩
  have hm : MeasurableSet {u : ℝ | surv l m u = true} :=
    ((measurable_surv m).comp (measurable_id.prodMk (measurable_const (a := l))))
      (measurableSet_singleton true)
  have hc : {u | surv l m u = false} = {u | surv l m u = true}ᶜ := by
    ext u; simp
  rw [hc, prob_compl_eq_one_sub hm, h1, ENNReal.ofReal_sub _ hs.1, ENNReal.ofReal_one]

omit h in
/-- The law of the index in slot `m` under killing resampling: `m` itself if it survives,
otherwise a draw from the weights. -/
def killingSlot (l : Fin N → Fl) (m b : Fin N) : ℝ :=
  nw l m / nwMax l * (if b = m then 1 else 0) + (1 - nw l m / nwMax l) * nw l b

omit h [MeasurableSpace K] in
theorem killingSlot_nonneg {l : Fin N → Fl} (hl : IsLogits l) (m b : Fin N) :
    0 ≤ killingSlot l m b := by
  have hs := nw_div_nwMax_mem hl m
  have := nw_nonneg l b
  have h1 : 0 ≤ 1 - nw l m / nwMax l := by linarith [hs.2]
  have h2 : (0 : ℝ) ≤ if b = m then 1 else 0 := by split_ifs <;> norm_num
  exact add_nonneg (mul_nonneg hs.1 h2) (mul_nonneg h1 this)

omit h [MeasurableSpace K] in
theorem killingSlot_sum {l : Fin N → Fl} (hl : IsLogits l) (m : Fin N) :
    ∑ b, killingSlot l m b = 1 := by
  simp only [killingSlot, Finset.sum_add_distrib, ← Finset.mul_sum, nw_sum hl]
  simp

omit h [MeasurableSpace K] in
theorem sum_killingSlot {l : Fin N → Fl} (hl : IsLogits l) (i : Fin N) :
    ∑ m, killingSlot l m i = N * nw l i := by
  have hM := (nwMax_pos hl).ne'
  simp only [killingSlot, Finset.sum_add_distrib, ← Finset.sum_mul, Finset.sum_sub_distrib,
    ← Finset.sum_div, nw_sum hl, mul_ite, mul_one, mul_zero]
  simp
  field_simp
  ring

theorem measurable_killingIdx (pf : Platform) :
    Measurable fun q : K × (Fin N → Fl) => killingIdx rng pf q.2 q.1 := by
  refine measurable_pi_iff.mpr fun m => ?_
  have h1 : Measurable fun q : K × (Fin N → Fl) => (rng.uniform (rng.nth q.1 2 0) N m, q.2) :=
    ((measurable_pi_apply m).comp ((h.uniform N).measurable.comp
      ((h.measurable_nth 2 0).comp measurable_fst))).prodMk measurable_snd
  have h2 : Measurable fun q : K × (Fin N → Fl) =>
      surv q.2 m (rng.uniform (rng.nth q.1 2 0) N m) := (measurable_surv m).comp h1
  have h3 : Measurable fun q : K × (Fin N → Fl) => (rng.nth q.1 2 1, q.2) :=
    ((h.measurable_nth 2 1).comp measurable_fst).prodMk measurable_snd
  have h4 : Measurable fun q : K × (Fin N → Fl) =>
      multinomialIdx rng pf q.2 N (rng.nth q.1 2 1) m :=
    (measurable_pi_apply m).comp ((measurable_multinomialIdx (n := N) h pf).comp h3)
  exact Measurable.ite (h2 (measurableSet_singleton true)) measurable_const h4

/-- The slots of killing resampling are independent. -/
theorem killingIdx_prob (pf : Platform) {l : Fin N → Fl} (hl : IsLogits l) (a : Fin N → Fin N) :
    P {k | killingIdx rng pf l k = a} = ∏ m, ENNReal.ofReal (killingSlot l m (a m)) := by
  classical
  have := h.prob
  have hset : MeasurableSet {k | killingIdx rng pf l k = a} :=
    ((measurable_killingIdx h pf).comp (measurable_id.prodMk (measurable_const (a := l))))
      (measurableSet_singleton a)
  -- given the survivors, the rest is multinomial
  obtain ⟨F, hF⟩ : ∃ F : (Fin N → Bool) → (Fin N → Fin N) → ℝ≥0∞,
    F = fun s c => ∏ m, if (if s m then m else c m) = a m then 1 else 0 := ⟨_, rfl⟩
  obtain ⟨S, hS⟩ : ∃ S : K → Fin N → Bool, S = fun k m => surv l m (rng.uniform k N m) := ⟨_, rfl⟩
  have hSm : Measurable S := by
    rw [hS]
    refine measurable_pi_iff.mpr fun m => ?_
    have h1 : Measurable fun k => (rng.uniform k N m, l) :=
      ((measurable_pi_apply m).comp (h.uniform N).measurable).prodMk measurable_const
    exact (measurable_surv m).comp h1
  have hMm : Measurable fun k => multinomialIdx rng pf l N k :=
    (measurable_multinomialIdx h pf).comp (measurable_id.prodMk measurable_const)
  have hFm : Measurable fun q : K × K => F (S q.1) (multinomialIdx rng pf l N q.2) := by
    have h1 : Measurable fun q : K × K => (S q.1, multinomialIdx rng pf l N q.2) :=
      (hSm.comp measurable_fst).prodMk (hMm.comp measurable_snd)
    have h2 : Measurable fun q : (Fin N → Bool) × (Fin N → Fin N) => F q.1 q.2 :=
      measurable_of_finite _
    exact h2.comp h1
  have h1 : P {k | killingIdx rng pf l k = a} =
      ∫⁻ x, ∫⁻ y, F (S x) (multinomialIdx rng pf l N y) ∂P ∂P := by
    rw [← h.lintegral_split_two hFm, ← lintegral_indicator_one hset]
    refine lintegral_congr fun k => ?_
    rw [indicator_apply, hF, hS]
    simp only [Finset.prod_ite_zero, Finset.prod_const_one, Pi.one_apply]
    refine if_congr ?_ rfl rfl
    simp [funext_iff, killingIdx]
  rw [h1]
  have h0 : ∀ x, ∫⁻ y, F (S x) (multinomialIdx rng pf l N y) ∂P =
      ∑ c : Fin N → Fin N, (∏ m, ENNReal.ofReal (nw l (c m))) * F (S x) c :=
    fun x => multinomialIdx_law h pf hl (F (S x))
  simp only [h0]
  simp only [hF, ← Finset.prod_mul_distrib]
  have h2 : ∀ s : Fin N → Bool, ∑ c : Fin N → Fin N, ∏ m, (ENNReal.ofReal (nw l (c m)) *
      if (if s m then m else c m) = a m then 1 else 0) =
      ∏ m, ∑ b, ENNReal.ofReal (nw l b) * if (if s m then m else b) = a m then 1 else 0 := by
    intro s
    rw [Finset.prod_univ_sum, Fintype.piFinset_univ]
  simp only [h2, hS]
  have hm1 : ∀ m, Measurable fun u : ℝ => ∑ b, ENNReal.ofReal (nw l b) *
      if (if surv l m u then m else b) = a m then (1 : ℝ≥0∞) else 0 := by
    intro m
    have hsm : Measurable fun u : ℝ => surv l m u :=
      (measurable_surv m).comp (measurable_id.prodMk (measurable_const (a := l)))
    have h3 : Measurable fun t : Bool => ∑ b, ENNReal.ofReal (nw l b) *
      if (if t then m else b) = a m then (1 : ℝ≥0∞) else 0 := measurable_of_finite _
    exact h3.comp hsm
  rw [(h.uniform N).lintegral_comp (f := fun us => ∏ m, ∑ b, ENNReal.ofReal (nw l b) *
      if (if surv l m (us m) then m else b) = a m then (1 : ℝ≥0∞) else 0)
    (Finset.measurable_prod _ fun m _ => (hm1 m).comp (measurable_pi_apply m)),
    lintegral_pi_prod unif N hm1]
  refine Finset.prod_congr rfl fun m _ => ?_
  have hsm : ∀ t, MeasurableSet {u : ℝ | surv l m u = t} := fun t =>
    ((measurable_surv m).comp (measurable_id.prodMk (measurable_const (a := l))))
      (measurableSet_singleton t)
  rw [lintegral_finite (f := surv l m) hsm fun t => ∑ b, ENNReal.ofReal (nw l b) *
      if (if t then m else b) = a m then (1 : ℝ≥0∞) else 0]
  have hs := nw_div_nwMax_mem hl m
  rw [Fintype.sum_bool, (surv_law hl m).1, (surv_law hl m).2, killingSlot]
  simp only [if_true, Bool.false_eq_true, if_false]
  rw [← Finset.sum_mul, ← ENNReal.ofReal_sum_of_nonneg fun i _ => nw_nonneg l i, nw_sum hl,
    ENNReal.ofReal_one, one_mul, ENNReal.ofReal_add, ENNReal.ofReal_mul hs.1,
    ENNReal.ofReal_mul (by linarith [hs.2])]
  · congr 1
    · congr 1
      rcases eq_or_ne m (a m) with he | he
      · rw [if_pos he, if_pos he.symm, ENNReal.ofReal_one]
      · rw [if_neg he, if_neg he.symm, ENNReal.ofReal_zero]
    · congr 1
      rw [Finset.sum_eq_single (a m)]
      · simp
      · intro b _ hb; simp [hb]
      · simp
  · have : (0 : ℝ) ≤ if a m = m then 1 else 0 := by split_ifs <;> norm_num
    exact mul_nonneg hs.1 this
  · exact mul_nonneg (by linarith [hs.2]) (nw_nonneg l _)

theorem killingIdx_law (pf : Platform) {l : Fin N → Fl} (hl : IsLogits l)
    (G : (Fin N → Fin N) → ℝ≥0∞) :
    ∫⁻ k, G (killingIdx rng pf l k) ∂P =
      ∑ a, (∏ m, ENNReal.ofReal (killingSlot l m (a m))) * G a := by
  have hset : ∀ a, MeasurableSet {k | killingIdx rng pf l k = a} := fun a =>
    ((measurable_killingIdx h pf).comp (measurable_id.prodMk (measurable_const (a := l))))
      (measurableSet_singleton a)
  rw [lintegral_finite hset]
  simp only [killingIdx_prob h pf hl]

/-- The law of the index in one slot under killing resampling. -/
theorem killingIdx_slot (pf : Platform) {l : Fin N → Fl} (hl : IsLogits l) (m : Fin N)
    (G : Fin N → ℝ≥0∞) :
    ∫⁻ k, G (killingIdx rng pf l k m) ∂P = ∑ i, ENNReal.ofReal (killingSlot l m i) * G i := by
  rw [killingIdx_law h pf hl fun a => G (a m)]
  refine sum_prod_slot (q := fun m i => ENNReal.ofReal (killingSlot l m i)) (fun j => ?_) m G
  rw [← ENNReal.ofReal_sum_of_nonneg fun i _ => killingSlot_nonneg hl j i, killingSlot_sum hl,
    ENNReal.ofReal_one]

/-! ### Systematic -/

omit h in
/-- The indices of systematic resampling. -/
def systematicIdx (rng : Rng K) (pf : Platform) (l : Fin N → Fl) (n : ℕ) (k : K) : Fin n → Fin N :=
  inverseCdf pf (systematicUniforms (rng.uniform0 k) n) l

omit h [MeasurableSpace K] in
theorem systematic_eq (rng : Rng K) (pf : Platform) (k : K) (l : Fin N → Fl) (pos : Fin N → X)
    (n : ℕ) : systematic rng pf k l pos n =
      .ok ⟨systematicIdx rng pf l n k, fun _ => 0, fun m => pos (systematicIdx rng pf l n k m)⟩ :=
  rfl

omit h [MeasurableSpace K] [NeZero N] in
theorem measurable_systematicUniforms : Measurable fun u : ℝ => systematicUniforms u n := by
  refine measurable_pi_iff.mpr fun m => ?_
  simp only [systematicUniforms_eq]
  exact Fl.measurable_fin.comp ((measurable_id.add_const _).div_const _)

theorem measurable_systematicIdx (pf : Platform) :
    Measurable fun q : K × (Fin N → Fl) => systematicIdx rng pf q.2 n q.1 := by
  have h1 : Measurable fun q : K × (Fin N → Fl) =>
      (systematicUniforms (rng.uniform0 q.1) n, q.2) :=
    ((measurable_systematicUniforms (n := n)).comp
      (h.uniform0.measurable.comp measurable_fst)).prodMk measurable_snd
  exact (measurable_inverseCdf pf).comp h1

omit h [MeasurableSpace K] [NeZero N] in
/-- Stacking `n` unit intervals. -/
theorem sum_lintegral_unif {g : ℝ → ℝ≥0∞} (n : ℕ) :
    ∑ m : Fin n, ∫⁻ u, g (u + (m : ℕ)) ∂unif = ∫⁻ t in Ico (0 : ℝ) n, g t := by
  induction n with
  | zero => simp
  | succ n ih =>
    rw [Fin.sum_univ_castSucc]
    simp only [Fin.val_castSucc, Fin.val_last]
    rw [ih]
    have h1 : ∫⁻ u, g (u + n) ∂unif = ∫⁻ t in Ico (n : ℝ) (n + 1), g t := by
      rw [unif, ← lintegral_indicator measurableSet_Ico, ← lintegral_indicator measurableSet_Ico,
        ← lintegral_add_right_eq_self ((Ico (n : ℝ) (n + 1)).indicator fun t => g t) (n : ℝ)]
      refine lintegral_congr fun u => ?_
      simp only [indicator_apply, mem_Ico]
      refine if_congr ?_ rfl rfl
      constructor <;> rintro ⟨h1, h2⟩ <;> constructor <;> linarith
    rw [h1, ← lintegral_union measurableSet_Ico]
    · push_cast
      rw [Ico_union_Ico_eq_Ico (by positivity) (by linarith)]
    · rw [Set.disjoint_left]
      rintro x ⟨_, h1⟩ ⟨h2, _⟩
      linarith

/-- Under systematic resampling the expected number of copies is `n w_i`. -/
theorem systematicIdx_mean (pf : Platform) {l : Fin N → Fl} (hl : IsLogits l) (i : Fin N) :
    ∑ m : Fin n, P {k | systematicIdx rng pf l n k m = i} = n * ENNReal.ofReal (nw l i) := by
  rcases Nat.eq_zero_or_pos n with rfl | hn
  · simp
  have hn' : (0 : ℝ) < n := by exact_mod_cast hn
  have hmeas : ∀ m : Fin n, Measurable fun u : ℝ => inverseCdf pf (systematicUniforms u n) l m := by
    intro m
    have h1 : Measurable fun u : ℝ => (systematicUniforms u n, l) :=
      measurable_systematicUniforms.prodMk measurable_const
    exact (measurable_pi_apply m).comp ((measurable_inverseCdf pf).comp h1)
  have h1 : ∀ m : Fin n, P {k | systematicIdx rng pf l n k m = i} =
      ∫⁻ u, (Ioc (n * cumBelow (nw l) i) (n * cum (nw l) i)).indicator 1 (u + (m : ℕ)) ∂unif := by
    intro m
    have h2 : P {k | systematicIdx rng pf l n k m = i} =
        unif {u | inverseCdf pf (systematicUniforms u n) l m = i} := by
      have h3 : MeasurableSet {u | inverseCdf pf (systematicUniforms u n) l m = i} :=
        (hmeas m) (measurableSet_singleton i)
      rw [← h.uniform0.measure_preimage h3.nullMeasurableSet]
      rfl
    have h3 : MeasurableSet {u | inverseCdf pf (systematicUniforms u n) l m = i} :=
      (hmeas m) (measurableSet_singleton i)
    rw [h2, ← lintegral_indicator_one h3]
    refine lintegral_congr_ae (unif_ae.mono fun u hu => ?_)
    simp only [indicator_apply, mem_ofPred_eq, Pi.one_apply, mem_Ioc]
    refine if_congr ?_ rfl rfl
    rw [systematic_idx pf hl hu.1 hu.2, lt_div_iff₀ hn', div_le_iff₀ hn', mul_comm _ (n : ℝ),
      mul_comm _ (n : ℝ)]
  simp only [h1]
  have h0 := cumBelow_nonneg (nw_nonneg l) i
  have hc1 : cum (nw l) i ≤ 1 := (cum_le_sum (nw_nonneg l) i).trans (nw_sum hl).le
  rw [sum_lintegral_unif, Measure.restrict_congr_set Ico_ae_eq_Ioc,
    lintegral_indicator_one measurableSet_Ioc,
    Measure.restrict_apply measurableSet_Ioc, inter_eq_left.mpr, Real.volume_Ioc, ← mul_sub, cum_eq,
    add_sub_cancel_left, ENNReal.ofReal_mul hn'.le, ENNReal.ofReal_natCast]
  refine Ioc_subset_Ioc (by positivity) ?_
  nlinarith

end law

end Resampling

end

end Cuthbert
