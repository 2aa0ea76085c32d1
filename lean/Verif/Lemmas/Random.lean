import Mathlib.Probability.Independence.InfinitePi
import Mathlib.Data.Nat.Pairing
import Mathlib.MeasureTheory.Function.Floor
import Verif.Lemmas.MeasurableFl
import Verif.Props.Resampling

/-!
# Ideal random numbers exist

A key is an infinite tree of independent uniform numbers; splitting takes subtrees. Two ways to
number the subtrees give the prefix property of JAX's default generator and the independence of
splits of different sizes.
-/

namespace Cuthbert
open MeasureTheory Set
open scoped ENNReal Nat

noncomputable section

instance : IsProbabilityMeasure unif := ⟨by simp [unif]⟩

theorem unif_eq : unif = volume.restrict (Ioo 0 1) := by
  rw [unif, Measure.restrict_congr_set Ioo_ae_eq_Ico]

/-- A uniform draw is almost surely in the open unit interval. -/
theorem unif_ae : ∀ᵐ u ∂unif, 0 < u ∧ u < 1 := by
  rw [unif_eq]
  exact ae_restrict_mem measurableSet_Ioo

theorem unif_Ioc {a b : ℝ} (ha : 0 ≤ a) (hb : b ≤ 1) : unif (Ioc a b) = ENNReal.ofReal (b - a) := by
  rw [unif, Measure.restrict_congr_set Ico_ae_eq_Ioc, Measure.restrict_apply measurableSet_Ioc,
    inter_eq_left.mpr, Real.volume_Ioc]
  exact Ioc_subset_Ioc ha hb

namespace Resampling

variable {N : ℕ} [NeZero N]

/-- The index of a single draw. -/
def cell (pf : Platform) (l : Fin N → Fl) (u : ℝ) : Fin N :=
  inverseCdf pf (fun _ : Fin 1 => Fl.fin u) l 0

theorem cell_iff (pf : Platform) {l : Fin N → Fl} (hl : IsLogits l) {u : ℝ} (h0 : 0 < u)
    (h1 : u ≤ 1) (i : Fin N) :
    cell pf l u = i ↔ cumBelow (nw l) i < u ∧ u ≤ cum (nw l) i :=
  inverse_cdf_cell pf hl (fun _ : Fin 1 => u) (fun _ _ _ => le_rfl) 0 h0 h1 i

theorem measurable_cell (pf : Platform) :
    Measurable fun q : ℝ × (Fin N → Fl) => cell pf q.2 q.1 := by
  have h1 : Measurable fun q : ℝ × (Fin N → Fl) => ((fun _ : Fin 1 => Fl.fin q.1), q.2) :=
    (measurable_pi_iff.mpr fun _ => Fl.measurable_fin.comp measurable_fst).prodMk measurable_snd
  exact (measurable_pi_apply (0 : Fin 1)).comp ((measurable_inverseCdf pf).comp h1)

attribute [irreducible] cell

theorem _root_.Measurable.cell {Ω : Type*} [MeasurableSpace Ω] (pf : Platform) {f : Ω → ℝ}
    {g : Ω → Fin N → Fl} (hf : Measurable f) (hg : Measurable g) :
    Measurable fun x => Resampling.cell pf (g x) (f x) :=
  (measurable_cell pf).comp (hf.prodMk hg)

theorem measurable_cell' (pf : Platform) (l : Fin N → Fl) : Measurable (cell pf l) :=
  (measurable_cell pf).comp (measurable_id.prodMk measurable_const)

/-- A single uniform draw selects index `i` with probability `w_i`. -/
theorem cell_law (pf : Platform) {l : Fin N → Fl} (hl : IsLogits l) (i : Fin N) :
    unif {u | cell pf l u = i} = ENNReal.ofReal (nw l i) := by
  have hae : {u | cell pf l u = i} =ᵐ[unif] Ioc (cumBelow (nw l) i) (cum (nw l) i) := by
    refine unif_ae.mono fun u hu => ?_
    exact propext (cell_iff pf hl hu.1 hu.2.le i)
  rw [measure_congr hae, unif_Ioc (cumBelow_nonneg (nw_nonneg l) i), cum_eq, add_sub_cancel_left]
  exact (cum_le_sum (nw_nonneg l) i).trans (nw_sum hl).le

end Resampling

open Resampling

/-- A random key: a number for every node of an infinite tree. -/
abbrev Key := List ℕ → ℝ

/-- The law of a random key. -/
def keyLaw : Measure Key := Measure.infinitePi fun _ => unif

instance : IsProbabilityMeasure keyLaw := by unfold keyLaw; infer_instance

/-- Disjoint parts of a random key are independent random keys. -/
theorem keyLaw_parts {ι : Type*} [Fintype ι] (g : ι × List ℕ → List ℕ)
    (hg : Function.Injective g) :
    MeasurePreserving (fun (k : Key) (i : ι) (p : List ℕ) => k (g (i, p))) keyLaw
      (Measure.pi fun _ => keyLaw) := by
  refine ⟨by fun_prop, ?_⟩
  have h1 := Measure.map_infinitePi_infinitePi_of_inj (P := fun _ : List ℕ => unif) hg
  have h2 := Measure.infinitePi_map_curry (fun (_ : ι) (_ : List ℕ) => unif)
  rw [← Measure.infinitePi_eq_pi]
  unfold keyLaw
  rw [← h2, ← h1, Measure.map_map (MeasurableEquiv.measurable _) (by fun_prop)]
  rfl

theorem fract_unif : MeasurePreserving (Int.fract : ℝ → ℝ) unif unif := by
  refine ⟨measurable_fract, ?_⟩
  have : (Int.fract : ℝ → ℝ) =ᵐ[unif] id :=
    unif_ae.mono fun u hu => Int.fract_eq_self.mpr ⟨hu.1.le, hu.2⟩
  rw [Measure.map_congr this, Measure.map_id]

theorem coord_unif (p : List ℕ) : MeasurePreserving (fun k : Key => Int.fract (k p)) keyLaw unif :=
  fract_unif.comp (measurePreserving_eval_infinitePi (fun _ : List ℕ => unif) p)

instance neZero_card_perm (n : ℕ) : NeZero (Fintype.card (Equiv.Perm (Fin n))) :=
  ⟨Fintype.card_ne_zero⟩

/-- Random numbers read off a random key; `e n i` is the branch of key `i` of a split into `n`. -/
def keyRng (e : ℕ → ℕ → ℕ) : Rng Key where
  split k n := (List.range n).map fun i p => k (e n i :: p)
  length_split k n := by simp
  uniform k n i := Int.fract (k [i])
  uniform_mem k n i := ⟨Int.fract_nonneg _, Int.fract_lt_one _⟩
  uniform0 k := Int.fract (k [])
  uniform0_mem k := ⟨Int.fract_nonneg _, Int.fract_lt_one _⟩
  permutation k n := (Fintype.equivFin (Equiv.Perm (Fin n))).symm
    (cell .other (fun _ => 0) (Int.fract (k [])))
  choice k n _ p := cell .other (fun i => Fl.log (p i)) (Int.fract (k []))
  categorical k n _ l := cell .other l (Int.fract (k []))

@[simp] theorem keyRng_nth (e : ℕ → ℕ → ℕ) (k : Key) (n : ℕ) (i : Fin n) :
    (keyRng e).nth k n i = fun p => k (e n i :: p) := by
  simp [Prng.nth, keyRng]

theorem isLogits_zero {N : ℕ} [NeZero N] : IsLogits (fun _ : Fin N => (0 : Fl)) :=
  ⟨fun _ => trivial, 0, trivial⟩

theorem nw_zero {N : ℕ} [NeZero N] (i : Fin N) : nw (fun _ => (0 : Fl)) i = (N : ℝ)⁻¹ := by
  simp [nw, Fl.lik]

theorem isLogits_log {n : ℕ} {p : Fin n → ℝ} (h0 : ∀ i, 0 ≤ p i) (h1 : ∑ i, p i = 1) :
    IsLogits fun i => Fl.log (Fl.fin (p i)) := by
  have hlog : ∀ i, (0 < p i ∧ Fl.log (Fl.fin (p i)) = Fl.fin (Real.log (p i))) ∨
      (p i = 0 ∧ Fl.log (Fl.fin (p i)) = Fl.ninf) := fun i => by
    rcases (h0 i).lt_or_eq with h | h
    · exact Or.inl ⟨h, Fl.log_fin _ h⟩
    · exact Or.inr ⟨h.symm, by rw [← h, Fl.log_zero]⟩
  refine ⟨fun i => ?_, ?_⟩
  · rcases hlog i with h | h <;> simp [h.2, Fl.IsLog]
  · by_contra hcon
    push Not at hcon
    have : ∀ i, p i = 0 := fun i => by
      rcases hlog i with h | h
      · exact absurd (by simp [h.2, Fl.IsFin]) (hcon i)
      · exact h.1
    simp [this] at h1

theorem nw_log {n : ℕ} {p : Fin n → ℝ} (h0 : ∀ i, 0 ≤ p i) (h1 : ∑ i, p i = 1) (i : Fin n) :
    nw (fun i => Fl.log (Fl.fin (p i))) i = p i := by
  have hl : ∀ i, (Fl.log (Fl.fin (p i))).lik = p i := fun i => by
    rcases (h0 i).lt_or_eq with h | h
    · rw [Fl.log_fin _ h, Fl.lik, Real.exp_log h]
    · rw [← h, Fl.log_zero]; rfl
  simp only [nw, hl, h1, div_one]

theorem measurable_pick {n : ℕ} [NeZero n] : Measurable fun q : Key × (Fin n → Fl) =>
    cell .other q.2 (Int.fract (q.1 [])) := by
  have h : Measurable fun q : Key × (Fin n → Fl) => Int.fract (q.1 []) :=
    (coord_unif []).measurable.comp measurable_fst
  exact h.cell .other measurable_snd

theorem pick_law {n : ℕ} [NeZero n] {l : Fin n → Fl} (hl : IsLogits l) (i : Fin n) :
    keyLaw {k | cell .other l (Int.fract (k [])) = i} = ENNReal.ofReal (nw l i) := by
  rw [← cell_law .other hl i, ← (coord_unif []).measure_preimage]
  · rfl
  · exact ((measurable_cell' .other l) (measurableSet_singleton i)).nullMeasurableSet

theorem keyRng_split (e : ℕ → ℕ → ℕ) (he : ∀ n, Function.Injective (e n)) (n : ℕ) :
    MeasurePreserving (fun k (i : Fin n) => (keyRng e).nth k n i) keyLaw
      (Measure.pi fun _ => keyLaw) := by
  simp only [keyRng_nth]
  refine keyLaw_parts (fun q : Fin n × List ℕ => e n q.1 :: q.2) fun a b h => ?_
  simp only [List.cons.injEq] at h
  exact Prod.ext (Fin.ext (he n h.1)) h.2

theorem key_uniforms (n : ℕ) :
    MeasurePreserving (fun (k : Key) (i : Fin n) => Int.fract (k [(i : ℕ)])) keyLaw
      (Measure.pi fun _ => unif) := by
  refine ⟨measurable_pi_iff.mpr fun i => (coord_unif [(i : ℕ)]).measurable, ?_⟩
  have h1 := Measure.map_infinitePi_infinitePi_of_inj (P := fun _ : List ℕ => unif)
    (f := fun i : Fin n => [(i : ℕ)]) (fun a b h => Fin.ext (by simpa using h))
  have h2 := Measure.infinitePi_map_pi (fun _ : Fin n => unif)
    (f := fun _ => (Int.fract : ℝ → ℝ)) (fun _ => measurable_fract)
  have h3 : Measurable fun (x : Fin n → ℝ) i => Int.fract (x i) :=
    measurable_pi_iff.mpr fun i => measurable_fract.comp (measurable_pi_apply i)
  rw [← h1, Measure.map_map h3 (by fun_prop)] at h2
  simp only [fract_unif.map_eq, Measure.infinitePi_eq_pi] at h2
  exact h2

theorem keyRng_perm_iff (e : ℕ → ℕ → ℕ) (k : Key) (n : ℕ) (σ : Equiv.Perm (Fin n)) :
    (keyRng e).permutation k n = σ ↔
      cell .other (fun _ => 0) (Int.fract (k [])) = Fintype.equivFin (Equiv.Perm (Fin n)) σ :=
  Equiv.symm_apply_eq _

theorem keyRng_choice (e : ℕ → ℕ → ℕ) (k : Key) (n : ℕ) [NeZero n] (p : Fin n → Fl) :
    (keyRng e).choice k n p = cell .other (fun i => Fl.log (p i)) (Int.fract (k [])) := rfl

theorem keyRng_categorical (e : ℕ → ℕ → ℕ) (k : Key) (n : ℕ) [NeZero n] (l : Fin n → Fl) :
    (keyRng e).categorical k n l = cell .other l (Int.fract (k [])) := rfl

/-- Keys that satisfy every law of `IdealRng`. -/
theorem keyRng_ideal (e : ℕ → ℕ → ℕ) (he : ∀ n, Function.Injective (e n)) :
    IdealRng (keyRng e) keyLaw where
  prob := inferInstance
  split := keyRng_split e he
  uniform := key_uniforms
  uniform0 := coord_unif []
  permutation_measurable n σ := by
    simp only [keyRng_perm_iff]
    have h := (measurable_pick (n := Fintype.card (Equiv.Perm (Fin n)))).comp
      (measurable_id.prodMk (measurable_const (a := fun _ => (0 : Fl))))
    exact h (measurableSet_singleton _)
  permutation n σ := by
    simp only [keyRng_perm_iff]
    rw [pick_law isLogits_zero, nw_zero, Fintype.card_perm, Fintype.card_fin,
      ENNReal.ofReal_inv_of_pos (by positivity), ENNReal.ofReal_natCast]
  choice_measurable n _ := by
    simp only [keyRng_choice]
    have h : Measurable fun q : Key × (Fin n → Fl) => (q.1, fun i => Fl.log (q.2 i)) :=
      measurable_fst.prodMk (measurable_pi_iff.mpr fun i =>
        Fl.measurable_log.comp ((measurable_pi_apply i).comp measurable_snd))
    exact Measurable.comp (g := fun q : Key × (Fin n → Fl) => cell .other q.2 (Int.fract (q.1 [])))
      measurable_pick h
  choice n _ p h0 h1 i := by
    simp only [keyRng_choice]
    rw [pick_law (isLogits_log h0 h1), nw_log h0 h1]
  categorical_measurable n _ := by
    simp only [keyRng_categorical]
    exact measurable_pick
  categorical n _ l hl i := by
    simp only [keyRng_categorical]
    exact pick_law hl i

/-- Ideal keys with the prefix property exist. -/
theorem exists_ideal_prefix :
    ∃ rng : Rng Key, IdealRng rng keyLaw ∧ PrefixSplit rng.toPrng :=
  ⟨keyRng fun _ i => i, keyRng_ideal _ fun _ _ _ h => h, fun k n m i hn hm => by
    rw [keyRng_nth, keyRng_nth]⟩

/-- Ideal keys whose splits of different sizes are independent exist. -/
theorem exists_ideal_indep :
    ∃ rng : Rng Key, IdealRng rng keyLaw ∧ IndepSplit rng.toPrng keyLaw := by
  refine ⟨keyRng Nat.pair, keyRng_ideal _ fun n a b h => (Nat.pair_eq_pair.mp h).2,
    fun n m hnm => ?_⟩
  simp only [keyRng_nth]
  have h1 := keyLaw_parts
    (fun q : (Fin n ⊕ Fin m) × List ℕ => (q.1.elim (fun i : Fin n => Nat.pair n i) fun i : Fin m => Nat.pair m i) ::
      q.2) ?_
  · exact (measurePreserving_sumPiEquivProdPi (fun _ : Fin n ⊕ Fin m => keyLaw)).comp h1
  · rintro ⟨a | a, p⟩ ⟨b | b, q⟩ h
    · simp only [Sum.elim_inl, List.cons.injEq, Nat.pair_eq_pair] at h
      obtain ⟨⟨-, h⟩, rfl⟩ := h
      rw [Fin.ext h]
    · simp only [Sum.elim_inl, Sum.elim_inr, List.cons.injEq, Nat.pair_eq_pair] at h
      exact absurd h.1.1 hnm
    · simp only [Sum.elim_inl, Sum.elim_inr, List.cons.injEq, Nat.pair_eq_pair] at h
      exact absurd h.1.1.symm hnm
    · simp only [Sum.elim_inr, List.cons.injEq, Nat.pair_eq_pair] at h
      obtain ⟨⟨-, h⟩, rfl⟩ := h
      rw [Fin.ext h]

end

end Cuthbert
