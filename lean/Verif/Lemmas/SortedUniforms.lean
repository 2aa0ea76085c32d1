import Mathlib.MeasureTheory.Function.JacobianOneDim
import Mathlib.MeasureTheory.Constructions.Pi
import Mathlib.MeasureTheory.Measure.Lebesgue.EqHaar
import Mathlib.Analysis.SpecialFunctions.Gamma.Basic
import Mathlib.Data.Fin.Tuple.Sort
import Mathlib.Data.Fintype.Perm
import Verif.Lemmas.Random
import Verif.Props.Resampling

/-!
# The law of the sorted uniforms of multinomial resampling

The ratios of partial sums of `n + 1` exponential variables, randomly permuted, are `n`
independent uniform variables.
-/

namespace Cuthbert
open MeasureTheory Set
open scoped ENNReal Nat

noncomputable section

variable {α : Type*} [MeasurableSpace α] {n : ℕ}

/-- Integration over a product, first coordinate first. -/
theorem lintegral_pi_cons (μ : Measure α) [SigmaFinite μ] {F : (Fin (n + 1) → α) → ℝ≥0∞}
    (hF : Measurable F) :
    ∫⁻ x, F x ∂(Measure.pi fun _ => μ) =
      ∫⁻ c, ∫⁻ y, F (Fin.cons c y) ∂(Measure.pi fun _ : Fin n => μ) ∂μ := by
  have h := (measurePreserving_piFinSuccAbove (fun _ : Fin (n + 1) => μ) 0).symm
  rw [← h.lintegral_comp hF, lintegral_prod]
  · refine lintegral_congr fun c => lintegral_congr fun y => ?_
    congr 1
    simp [MeasurableEquiv.piFinSuccAbove]
    rfl
  · exact (hF.comp (MeasurableEquiv.measurable _)).aemeasurable

/-- Integration over a product, last coordinate first. -/
theorem lintegral_pi_snoc (μ : Measure α) [SigmaFinite μ] {F : (Fin (n + 1) → α) → ℝ≥0∞}
    (hF : Measurable F) :
    ∫⁻ x, F x ∂(Measure.pi fun _ => μ) =
      ∫⁻ c, ∫⁻ y, F (Fin.snoc (α := fun _ => α) y c) ∂(Measure.pi fun _ : Fin n => μ) ∂μ := by
  have h := (measurePreserving_piFinSuccAbove (fun _ : Fin (n + 1) => μ) (Fin.last n)).symm
  rw [← h.lintegral_comp hF, lintegral_prod]
  · refine lintegral_congr fun c => lintegral_congr fun y => ?_
    congr 1
    simp [MeasurableEquiv.piFinSuccAbove]
    rfl
  · exact (hF.comp (MeasurableEquiv.measurable _)).aemeasurable

theorem measurable_cons : Measurable fun p : α × (Fin n → α) =>
    (Fin.cons p.1 p.2 : Fin (n + 1) → α) := by
  refine measurable_pi_iff.mpr fun i => ?_
  refine Fin.cases ?_ (fun j => ?_) i
  · simpa using measurable_fst
  · have hm : Measurable fun p : α × (Fin n → α) => p.2 j :=
      (measurable_pi_apply j).comp measurable_snd
    simpa using hm

theorem measurable_snoc : Measurable fun p : α × (Fin n → α) =>
    (Fin.snoc (α := fun _ => α) p.2 p.1 : Fin (n + 1) → α) := by
  refine measurable_pi_iff.mpr fun i => ?_
  refine Fin.lastCases ?_ (fun j => ?_) i
  · simpa using measurable_fst
  · have hm : Measurable fun p : α × (Fin n → α) => p.2 j :=
      (measurable_pi_apply j).comp measurable_snd
    simpa using hm



/-- `-log u` is exponentially distributed for uniform `u`. -/
theorem lintegral_neg_log (f : ℝ → ℝ≥0∞) :
    ∫⁻ u, f (-Real.log u) ∂unif =
      ∫⁻ c in Ioi (0 : ℝ), ENNReal.ofReal (Real.exp (-c)) * f c := by
  have himg : (fun c : ℝ => Real.exp (-c)) '' Ioi 0 = Ioo 0 1 := by
    ext x
    constructor
    · rintro ⟨c, hc, rfl⟩
      exact ⟨Real.exp_pos _, by simpa using hc⟩
    · rintro ⟨h0, h1⟩
      refine ⟨-Real.log x, ?_, by simp [Real.exp_log h0]⟩
      simpa using Real.log_neg h0 h1
  have h := lintegral_image_eq_lintegral_abs_deriv_mul (s := Ioi (0 : ℝ))
    (f := fun c => Real.exp (-c)) (f' := fun c => Real.exp (-c) * -1) measurableSet_Ioi
    (fun c _ => ((Real.hasDerivAt_exp (-c)).comp c (hasDerivAt_neg c)).hasDerivWithinAt)
    (fun a _ b _ h => by simpa using h) (fun x => f (-Real.log x))
  rw [himg, Measure.restrict_congr_set Ioo_ae_eq_Ico] at h
  rw [unif, h]
  refine lintegral_congr fun c => ?_
  simp [abs_of_pos (Real.exp_pos _)]

namespace Resampling

theorem expSums_cons (u : ℝ) (us : Fin (n + 1) → ℝ) :
    expSums (Fin.cons u us : Fin (n + 2) → ℝ) =
      Fin.cons (-Real.log u) fun i => -Real.log u + expSums us i := by
  funext i
  refine Fin.cases ?_ (fun i => ?_) i
  · rw [expSums, show (Finset.univ.filter (· ≤ (0 : Fin (n + 2)))) = {0} from ?_]
    · simp
    · ext; simp
  · rw [Fin.cons_succ, expSums, expSums, show (Finset.univ.filter (· ≤ i.succ)) =
      insert 0 ((Finset.univ.filter (· ≤ i)).map (Fin.succEmb _)) from ?_, Finset.sum_insert]
    · simp
    · simp
    · ext k
      refine Fin.cases ?_ (fun k => ?_) k <;> simp

theorem measurable_expSums : Measurable (expSums : (Fin (n + 1) → ℝ) → Fin (n + 1) → ℝ) := by
  refine measurable_pi_iff.mpr fun i => ?_
  unfold expSums
  exact Finset.measurable_sum _ fun j _ => (Real.measurable_log.comp (measurable_pi_apply j)).neg

theorem measurableSet_strictMono : MeasurableSet {z : Fin n → ℝ | StrictMono z} := by
  have : {z : Fin n → ℝ | StrictMono z} = ⋂ i, ⋂ j, {z | i < j → z i < z j} := by
    ext z; simp [StrictMono]
  rw [this]
  refine MeasurableSet.iInter fun i => MeasurableSet.iInter fun j => ?_
  by_cases h : i < j
  · simpa [h] using measurableSet_lt (measurable_pi_apply i) (measurable_pi_apply j)
  · simp [h]

/-- Positive increasing vectors. -/
def posMono (n : ℕ) : Set (Fin (n + 1) → ℝ) := {z | 0 < z 0 ∧ StrictMono z}

theorem measurableSet_posMono : MeasurableSet (posMono n) :=
  (measurableSet_lt measurable_const (measurable_pi_apply 0)).inter measurableSet_strictMono

theorem strictMono_cons (c : ℝ) (z : Fin (n + 1) → ℝ) :
    StrictMono (Fin.cons c z : Fin (n + 2) → ℝ) ↔ c < z 0 ∧ StrictMono z := by
  rw [Fin.strictMono_iff_lt_succ, Fin.strictMono_iff_lt_succ, Fin.forall_fin_succ]
  simp

theorem posMono_cons (c : ℝ) (z : Fin (n + 1) → ℝ) :
    (Fin.cons c z : Fin (n + 2) → ℝ) ∈ posMono (n + 1) ↔
      0 < c ∧ (fun i => z i - c) ∈ posMono n := by
  rw [posMono, posMono, mem_ofPred_eq, mem_ofPred_eq, strictMono_cons, Fin.cons_zero, sub_pos]
  refine and_congr_right fun _ => and_congr_right fun _ => ?_
  constructor
  · intro h i j hij
    simpa using h hij
  · intro h i j hij
    have := h hij
    simpa using this

/-- The joint law of the partial sums of exponential variables. -/
theorem lintegral_expSums : ∀ (n : ℕ) {F : (Fin (n + 1) → ℝ) → ℝ≥0∞}, Measurable F →
    ∫⁻ us, F (expSums us) ∂(Measure.pi fun _ => unif) =
      ∫⁻ z, (posMono n).indicator (fun z => ENNReal.ofReal (Real.exp (-z (Fin.last n))) * F z) z
  | 0, F, hF => by
    rw [lintegral_pi_cons (F := fun us => F (expSums us)) _ (hF.comp measurable_expSums)]
    rw [volume_pi, lintegral_pi_cons]
    · have hl : ∀ c : ℝ, ∫⁻ y, F (expSums (Fin.cons c y)) ∂(Measure.pi fun _ : Fin 0 => unif) =
          F fun _ => -Real.log c := by
        intro c
        rw [lintegral_unique]
        simp only [measure_univ, mul_one]
        congr 1
        funext i
        rw [Fin.fin_one_eq_zero i, expSums]
        simp
      simp only [hl]
      rw [lintegral_neg_log fun c => F fun _ => c, ← lintegral_indicator measurableSet_Ioi]
      refine lintegral_congr fun c => ?_
      have hc0 : ∀ f : (Fin 0 → ℝ) → ℝ≥0∞, ∫⁻ y, f y ∂(Measure.pi fun _ : Fin 0 => (volume : Measure ℝ)) = f default := by
        intro f
        rw [Measure.pi_of_empty _ default, lintegral_dirac]
      rw [hc0]
      have hc : (Fin.cons c default : Fin 1 → ℝ) = fun _ => c := by
        funext i; rw [Fin.fin_one_eq_zero i]; rfl
      rw [hc]
      by_cases h : 0 < c
      · rw [indicator_of_mem (show c ∈ Ioi 0 from h), indicator_of_mem]
        exact ⟨h, fun i j hij => absurd hij (by simp [Fin.fin_one_eq_zero])⟩
      · rw [indicator_of_notMem (show c ∉ Ioi 0 from h), indicator_of_notMem]
        exact fun hc => h hc.1
    · refine Measurable.indicator ?_ measurableSet_posMono
      exact (Real.measurable_exp.comp (measurable_pi_apply _).neg).ennreal_ofReal.mul hF
  | n + 1, F, hF => by
    rw [lintegral_pi_cons (F := fun us => F (expSums us)) _ (hF.comp measurable_expSums)]
    have hmeas : Measurable ((posMono (n + 1)).indicator
        (fun z => ENNReal.ofReal (Real.exp (-z (Fin.last (n + 1)))) * F z)) := by
      refine Measurable.indicator ?_ measurableSet_posMono
      exact (Real.measurable_exp.comp (measurable_pi_apply _).neg).ennreal_ofReal.mul hF
    rw [volume_pi, lintegral_pi_cons _ hmeas]
    have hl : ∀ u : ℝ, ∫⁻ y, F (expSums (Fin.cons u y)) ∂(Measure.pi fun _ : Fin (n + 1) => unif) =
        (fun c => ∫⁻ z, (posMono n).indicator (fun z => ENNReal.ofReal (Real.exp (-z (Fin.last n))) *
          F (Fin.cons c fun i => c + z i)) z) (-Real.log u) := by
      intro u
      have hm : Measurable fun z : Fin (n + 1) → ℝ =>
          F (Fin.cons (-Real.log u) fun i => -Real.log u + z i) := by
        refine hF.comp (measurable_cons.comp (measurable_const.prodMk ?_))
        exact measurable_pi_iff.mpr fun i => measurable_const.add (measurable_pi_apply i)
      simp only []
      rw [← lintegral_expSums n hm]
      simp only [expSums_cons]
    simp only [hl]
    rw [lintegral_neg_log fun c => ∫⁻ z, (posMono n).indicator
      (fun z => ENNReal.ofReal (Real.exp (-z (Fin.last n))) *
          F (Fin.cons c fun i => c + z i)) z, ← lintegral_indicator measurableSet_Ioi]
    refine lintegral_congr fun c => ?_
    by_cases h : 0 < c
    · rw [indicator_of_mem (show c ∈ Ioi 0 from h), ← volume_pi,
        ← lintegral_sub_right_eq_self _ (fun _ => c), ← lintegral_const_mul']
      · refine lintegral_congr fun z => ?_
        by_cases hz : (z - fun _ => c) ∈ posMono n
        · rw [indicator_of_mem hz, indicator_of_mem ((posMono_cons c z).mpr ⟨h, hz⟩),
            ← mul_assoc, ← ENNReal.ofReal_mul (Real.exp_nonneg _), ← Real.exp_add]
          congr 2
          · congr 1
            rw [show Fin.last (n + 1) = (Fin.last n).succ from rfl, Fin.cons_succ, Pi.sub_apply]
            ring
          · congr 1
            funext i
            simp
        · rw [indicator_of_notMem hz, indicator_of_notMem fun hc =>
            hz ((posMono_cons c z).mp hc).2, mul_zero]
      · exact ENNReal.ofReal_ne_top
    · rw [indicator_of_notMem (show c ∉ Ioi 0 from h), ← volume_pi]
      symm
      rw [lintegral_eq_zero_iff' (by
        exact (hmeas.comp (measurable_cons.comp (measurable_const.prodMk measurable_id))).aemeasurable)]
      refine Filter.Eventually.of_forall fun z => ?_
      exact indicator_of_notMem (fun hc => h ((posMono_cons c z).mp hc).1) _

/-- Increasing vectors with entries in `(0, 1)`. -/
def unitMono (n : ℕ) : Set (Fin n → ℝ) := {s | StrictMono s ∧ ∀ i, 0 < s i ∧ s i < 1}

theorem measurableSet_unitMono : MeasurableSet (unitMono n) := by
  have : unitMono n = {s | StrictMono s} ∩ ⋂ i, {s | 0 < s i ∧ s i < 1} := by
    ext s; simp [unitMono]
  rw [this]
  refine measurableSet_strictMono.inter (MeasurableSet.iInter fun i => ?_)
  exact (measurableSet_lt measurable_const (measurable_pi_apply i)).inter
    (measurableSet_lt (measurable_pi_apply i) measurable_const)

theorem posMono_snoc (t : ℝ) (y : Fin n → ℝ) :
    (Fin.snoc (α := fun _ => ℝ) y t : Fin (n + 1) → ℝ) ∈ posMono n ↔
      0 < t ∧ t⁻¹ • y ∈ unitMono n := by
  have key : (Fin.snoc (α := fun _ => ℝ) y t : Fin (n + 1) → ℝ) ∈ posMono n ↔
      (∀ i, 0 < (Fin.snoc (α := fun _ => ℝ) y t : Fin (n + 1) → ℝ) i) ∧
        StrictMono (Fin.snoc (α := fun _ => ℝ) y t : Fin (n + 1) → ℝ) :=
    ⟨fun h => ⟨fun i => h.1.trans_le (h.2.monotone (Fin.zero_le i)), h.2⟩, fun h => ⟨h.1 0, h.2⟩⟩
  rw [key, Fin.forall_fin_succ']
  simp only [Fin.snoc_castSucc, Fin.snoc_last]
  constructor
  · rintro ⟨⟨hp, ht⟩, hm⟩
    refine ⟨ht, fun i j hij => ?_, fun i => ⟨?_, ?_⟩⟩
    · have := hm (Fin.castSucc_lt_castSucc_iff.mpr hij)
      simp only [Fin.snoc_castSucc] at this
      simp only [Pi.smul_apply, smul_eq_mul]
      gcongr
    · simp only [Pi.smul_apply, smul_eq_mul]
      exact mul_pos (inv_pos.mpr ht) (hp i)
    · have := hm (Fin.castSucc_lt_last i)
      simp only [Fin.snoc_castSucc, Fin.snoc_last] at this
      simp only [Pi.smul_apply, smul_eq_mul]
      rw [inv_mul_lt_iff₀ ht]
      simpa using this
  · rintro ⟨ht, hm, hb⟩
    have hm' : ∀ i j : Fin n, i < j → y i < y j := fun i j hij => by
      have := hm hij
      simp only [Pi.smul_apply, smul_eq_mul] at this
      exact lt_of_mul_lt_mul_left this (inv_nonneg.mpr ht.le)
    have hl : ∀ i, y i < t := fun i => by
      have := (hb i).2
      simp only [Pi.smul_apply, smul_eq_mul] at this
      rw [inv_mul_lt_iff₀ ht] at this
      simpa using this
    refine ⟨⟨fun i => ?_, ht⟩, fun i j hij => ?_⟩
    · have := (hb i).1
      simp only [Pi.smul_apply, smul_eq_mul] at this
      exact (mul_pos_iff_of_pos_left (inv_pos.mpr ht)).mp this
    · induction i using Fin.lastCases with
      | last => exact absurd hij (not_lt.mpr (Fin.le_last j))
      | cast i =>
        induction j using Fin.lastCases with
        | last => simpa using hl i
        | cast j => simpa using hm' i j (Fin.castSucc_lt_castSucc_iff.mp hij)

theorem lintegral_gamma (n : ℕ) :
    ∫⁻ t in Ioi (0 : ℝ), ENNReal.ofReal (Real.exp (-t)) * ENNReal.ofReal (t ^ n) = (n ! : ℝ≥0∞) := by
  have hG := Real.Gamma_eq_integral (s := (n : ℝ) + 1) (by positivity)
  have hI := Real.GammaIntegral_convergent (s := (n : ℝ) + 1) (by positivity)
  rw [Real.Gamma_nat_eq_factorial] at hG
  rw [← ENNReal.ofReal_natCast, hG, ofReal_integral_eq_lintegral_ofReal hI]
  · refine setLIntegral_congr_fun measurableSet_Ioi fun t (ht : 0 < t) => ?_
    rw [← ENNReal.ofReal_mul (Real.exp_nonneg _), add_sub_cancel_right, Real.rpow_natCast]
  · refine (ae_restrict_mem measurableSet_Ioi).mono fun t (ht : 0 < t) => ?_
    simp only [Pi.zero_apply]
    positivity

theorem lintegral_scale {t : ℝ} (ht : 0 < t) {H : (Fin n → ℝ) → ℝ≥0∞} (hH : Measurable H) :
    ∫⁻ y, H (t⁻¹ • y) = ENNReal.ofReal (t ^ n) * ∫⁻ s, H s := by
  have h := Measure.map_addHaar_smul (volume : Measure (Fin n → ℝ)) (inv_pos.mpr ht).ne'
  have h2 : ∫⁻ y, H (t⁻¹ • y) = ∫⁻ s, H s ∂(Measure.map (t⁻¹ • ·) volume) :=
    (lintegral_map hH (measurable_const_smul _)).symm
  rw [h2, h, lintegral_smul_measure]
  simp [abs_of_pos ht]

/-- The law of the sorted uniforms: uniform on increasing vectors. -/
theorem lintegral_sorted {G : (Fin n → ℝ) → ℝ≥0∞} (hG : Measurable G) :
    ∫⁻ us, G (fun m => expSums us m.castSucc / expSums us (Fin.last n))
        ∂(Measure.pi fun _ => unif) =
      (n ! : ℝ≥0∞) * ∫⁻ s, (unitMono n).indicator G s := by
  have hF : Measurable fun z : Fin (n + 1) → ℝ => G fun m => z m.castSucc / z (Fin.last n) :=
    hG.comp (measurable_pi_iff.mpr fun m =>
      (measurable_pi_apply m.castSucc).div (measurable_pi_apply (Fin.last n)))
  have hI : Measurable ((unitMono n).indicator G) := hG.indicator measurableSet_unitMono
  rw [lintegral_expSums n hF, volume_pi, lintegral_pi_snoc]
  · rw [← lintegral_gamma n, ← lintegral_mul_const, ← lintegral_indicator measurableSet_Ioi]
    · refine lintegral_congr fun t => ?_
      by_cases ht : 0 < t
      · rw [indicator_of_mem (show t ∈ Ioi 0 from ht), mul_assoc, ← lintegral_scale ht hI,
          ← lintegral_const_mul', volume_pi]
        · refine lintegral_congr fun y => ?_
          by_cases hy : t⁻¹ • y ∈ unitMono n
          · rw [indicator_of_mem ((posMono_snoc t y).mpr ⟨ht, hy⟩), indicator_of_mem hy]
            simp only [Fin.snoc_castSucc, Fin.snoc_last]
            congr 2
            funext m
            simp [div_eq_inv_mul]
          · rw [indicator_of_notMem fun h => hy ((posMono_snoc t y).mp h).2,
              indicator_of_notMem hy, mul_zero]
        · exact ENNReal.ofReal_ne_top
      · rw [indicator_of_notMem (show t ∉ Ioi 0 from ht)]
        have : ∀ y : Fin n → ℝ, (Fin.snoc (α := fun _ => ℝ) y t : Fin (n + 1) → ℝ) ∉ posMono n :=
          fun y h => ht ((posMono_snoc t y).mp h).1
        simp [indicator_of_notMem (this _)]
    · exact (Real.measurable_exp.comp measurable_neg).ennreal_ofReal.mul
        (measurable_id.pow_const n).ennreal_ofReal
  · refine Measurable.indicator ?_ measurableSet_posMono
    exact (Real.measurable_exp.comp (measurable_pi_apply _).neg).ennreal_ofReal.mul hF

theorem volume_eq_coord {i j : Fin n} (h : i ≠ j) : volume {x : Fin n → ℝ | x i = x j} = 0 := by
  have := Measure.addHaar_submodule (volume : Measure (Fin n → ℝ))
    (LinearMap.ker ((LinearMap.proj i : (Fin n → ℝ) →ₗ[ℝ] ℝ) - LinearMap.proj j)) ?_
  · convert this using 2
    ext x
    simp [sub_eq_zero]
  · intro htop
    have : Pi.single i (1 : ℝ) ∈
        LinearMap.ker ((LinearMap.proj i : (Fin n → ℝ) →ₗ[ℝ] ℝ) - LinearMap.proj j) := by
      rw [htop]; trivial
    simp [h.symm] at this

theorem ae_injective : ∀ᵐ x : Fin n → ℝ, Function.Injective x := by
  have : ∀ᵐ x : Fin n → ℝ, ∀ i j, i ≠ j → x i ≠ x j := by
    rw [ae_all_iff]; intro i
    rw [ae_all_iff]; intro j
    rw [ae_all_iff]; intro h
    rw [ae_iff]
    simpa using volume_eq_coord h
  refine this.mono fun x hx i j hij => ?_
  by_contra hne
  exact hx i j hne hij

/-- The open unit cube. -/
def cube (n : ℕ) : Set (Fin n → ℝ) := {s | ∀ i, 0 < s i ∧ s i < 1}

theorem lintegral_perm (σ : Equiv.Perm (Fin n)) (H : (Fin n → ℝ) → ℝ≥0∞) :
    ∫⁻ x : Fin n → ℝ, H (fun m => x (σ m)) = ∫⁻ x, H x := by
  have h := volume_measurePreserving_piCongrLeft (fun _ : Fin n => ℝ) σ.symm
  rw [← h.lintegral_comp_emb (MeasurableEquiv.measurableEmbedding _) H]
  refine lintegral_congr fun x => ?_
  congr 1
  funext m
  have := MeasurableEquiv.piCongrLeft_apply_apply (β := fun _ : Fin n => ℝ) σ.symm x (σ m)
  simpa using this.symm

/-- Integrating over all rearrangements of increasing vectors is integrating over the cube. -/
theorem sum_lintegral_perm {G : (Fin n → ℝ) → ℝ≥0∞} (hG : Measurable G) :
    ∑ σ : Equiv.Perm (Fin n), ∫⁻ s, (unitMono n).indicator (fun s => G fun m => s (σ m)) s =
      ∫⁻ x, (cube n).indicator G x := by
  have h1 : ∀ σ : Equiv.Perm (Fin n),
      ∫⁻ s, (unitMono n).indicator (fun s => G fun m => s (σ m)) s =
        ∫⁻ x, (unitMono n).indicator (fun _ => G x) (fun m => x (σ.symm m)) := by
    intro σ
    rw [← lintegral_perm σ.symm]
    refine lintegral_congr fun x => ?_
    by_cases h : (fun m => x (σ.symm m)) ∈ unitMono n
    · rw [indicator_of_mem h, indicator_of_mem h]
      simp
    · rw [indicator_of_notMem h, indicator_of_notMem h]
  simp only [h1]
  rw [← lintegral_finsetSum']
  · refine lintegral_congr_ae ?_
    refine ae_injective.mono fun x hx => ?_
    simp only []
    by_cases hc : x ∈ cube n
    · rw [indicator_of_mem hc, Finset.sum_eq_single (Tuple.sort x).symm]
      · rw [indicator_of_mem]
        refine ⟨?_, fun i => hc _⟩
        exact (Tuple.monotone_sort x).strictMono_of_injective
          (hx.comp (Equiv.injective _))
      · intro σ _ hσ
        refine indicator_of_notMem (fun h => hσ ?_) _
        have := Tuple.unique_monotone (f := x) (σ := σ.symm) (τ := Tuple.sort x) h.1.monotone
          (Tuple.monotone_sort x)
        refine Equiv.symm_bijective.injective (Equiv.ext fun m => hx ?_)
        simpa using congrFun this m
      · simp
    · rw [indicator_of_notMem hc]
      refine Finset.sum_eq_zero fun σ _ => indicator_of_notMem (fun h => hc fun i => ?_) _
      simpa using h.2 (σ i)
  · intro σ _
    refine Measurable.aemeasurable ?_
    have hset : MeasurableSet {x : Fin n → ℝ | (fun m => x (σ.symm m)) ∈ unitMono n} :=
      (measurable_pi_iff.mpr fun m => measurable_pi_apply (σ.symm m)) measurableSet_unitMono
    exact hG.indicator hset

/-- The restriction of Lebesgue measure to the cube is the law of independent uniforms. -/
theorem lintegral_cube {G : (Fin n → ℝ) → ℝ≥0∞} :
    ∫⁻ x, (cube n).indicator G x = ∫⁻ x, G x ∂(Measure.pi fun _ : Fin n => unif) := by
  have hs : cube n = Set.pi univ fun _ => Ioo (0 : ℝ) 1 := by ext; simp [cube]
  have hm : MeasurableSet (cube n) := by
    rw [hs]; exact MeasurableSet.univ_pi fun _ => measurableSet_Ioo
  rw [lintegral_indicator hm, hs, volume_pi, Measure.restrict_pi_pi]
  congr 2
  funext _
  rw [unif, Measure.restrict_congr_set Ioo_ae_eq_Ico]

/-- Randomly permuted normalised sums of exponential variables are independent uniforms. -/
theorem lintegral_shuffled {G : (Fin n → ℝ) → ℝ≥0∞} (hG : Measurable G) :
    ∑ σ : Equiv.Perm (Fin n), (n ! : ℝ≥0∞)⁻¹ *
      ∫⁻ us, G (fun m => expSums us (σ m).castSucc / expSums us (Fin.last n))
        ∂(Measure.pi fun _ => unif) =
      ∫⁻ x, G x ∂(Measure.pi fun _ : Fin n => unif) := by
  rw [← lintegral_cube, ← sum_lintegral_perm hG]
  refine Finset.sum_congr rfl fun σ _ => ?_
  have hσ : Measurable fun s : Fin n → ℝ => G fun m => s (σ m) :=
    hG.comp (measurable_pi_iff.mpr fun m => measurable_pi_apply (σ m))
  rw [lintegral_sorted hσ, ← mul_assoc, ENNReal.inv_mul_cancel, one_mul]
  · exact_mod_cast n.factorial_ne_zero
  · exact ENNReal.natCast_ne_top _

end Resampling

end

end Cuthbert
