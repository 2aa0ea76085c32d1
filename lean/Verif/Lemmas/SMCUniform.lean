import Verif.Lemmas.SMCConsistency
import Verif.Spec.Forgetting

/-!
# Errors of the particle filter when the model forgets
-/

namespace Cuthbert.SMC
open MeasureTheory Set Resampling
open scoped ENNReal NNReal

noncomputable section

variable {K X Inp : Type} {N : ℕ}

/-! ### The model forgets -/

section forget

variable [MeasurableSpace K] [MeasurableSpace X] {P : Measure K} [IsProbabilityMeasure P] {mdl : FKModel K X Inp}
  {u : Inp} {r b : ℝ≥0}

omit [IsProbabilityMeasure P] in
theorem fkQ_eq_step (hu : mdl.Regular u) {f : X → ℝ≥0∞} (hf : Measurable f) (x : X) :
    fkQ P mdl u f x = ∫⁻ x', (mdl.step P u).pot x x' * f x' ∂(mdl.step P u).kernel x := by
  have h1 : Measurable fun x' => (mdl.step P u).pot x x' * f x' := by
    have h2 : Measurable fun x' => mdl.logPotential x x' u :=
      hu.logPotential.comp (measurable_const.prodMk measurable_id)
    exact (ENNReal.measurable_ofReal.comp (Fl.measurable_lik.comp h2)).mul hf
  have h3 : Measurable fun k => mdl.propagate k x u :=
    hu.propagate.comp (measurable_id.prodMk measurable_const)
  change _ = ∫⁻ x', (mdl.step P u).pot x x' * f x' ∂(P.map fun k => mdl.propagate k x u)
  rw [lintegral_map h1 h3]
  rfl

omit [IsProbabilityMeasure P] in
theorem fkQ_add_mul (hu : mdl.Regular u) {f g : X → ℝ≥0∞} (hg : Measurable g) (a : ℝ≥0∞) (x : X) :
    fkQ P mdl u (fun x => f x + a * g x) x = fkQ P mdl u f x + a * fkQ P mdl u g x := by
  have h1 : ∀ g : X → ℝ≥0∞, Measurable g → Measurable fun k =>
      ENNReal.ofReal (mdl.logPotential x (mdl.propagate k x u) u).lik * g (mdl.propagate k x u) := fun g hg =>
    (measurable_weighted hu hg).comp (measurable_const.prodMk measurable_id)
  unfold fkQ
  rw [← lintegral_const_mul _ (h1 g hg), ← lintegral_add_right _ ((h1 g hg).const_mul a)]
  refine lintegral_congr fun k => ?_
  ring

omit [MeasurableSpace X] [IsProbabilityMeasure P] in
theorem fkQ_mono {f g : X → ℝ≥0∞} (h : ∀ x, f x ≤ g x) (x : X) : fkQ P mdl u f x ≤ fkQ P mdl u g x :=
  lintegral_mono fun _ => mul_le_mul_right (h _) _

omit [IsProbabilityMeasure P] in
theorem fkQ_const (hu : mdl.Regular u) (a : ℝ≥0∞) (x : X) :
    fkQ P mdl u (fun _ => a) x = a * fkQ P mdl u (fun _ => 1) x := by
  have h := fkQ_add_mul (P := P) hu (f := fun _ => 0) (g := fun _ => 1) measurable_const a x
  simp only [mul_one, zero_add] at h
  rw [h]
  simp [fkQ]

/-- `Forgets` in terms of `fkQ`. -/
structure ForgetsQ (P : Measure K) (mdl : FKModel K X Inp) (u : Inp) (r b : ℝ≥0) : Prop where
  forget : ∀ f : X → ℝ≥0∞, Measurable f → ∀ x y, fkQ P mdl u f x ≤ r * fkQ P mdl u f y
  bound : ∀ x x' y, ENNReal.ofReal (mdl.logPotential x x' u).lik ≤ b * fkQ P mdl u (fun _ => 1) y
  pos : ∀ x, fkQ P mdl u (fun _ => 1) x ≠ 0
  finite : ∀ x, fkQ P mdl u (fun _ => 1) x ≠ ⊤

omit [IsProbabilityMeasure P] in
theorem forgetsQ (hu : mdl.Regular u) (h : (mdl.step P u).Forgets r b) : ForgetsQ P mdl u r b where
  forget f hf x y := by
    rw [fkQ_eq_step hu hf, fkQ_eq_step hu hf]
    exact h.forget f hf x y
  bound x x' y := by
    rw [fkQ_eq_step hu measurable_const]
    simp only [mul_one]
    exact h.bound x x' y
  pos x := by
    rw [fkQ_eq_step hu measurable_const]
    simp only [mul_one]
    exact h.pos x
  finite x := by
    rw [fkQ_eq_step hu measurable_const]
    simp only [mul_one]
    exact h.finite x

/-- What the later steps say about the present state depends on it by at most a factor `r`. -/
theorem fkG_one_le (hr : 1 ≤ r) : ∀ (us : List Inp) (t : ℕ), (∀ u ∈ us, mdl.Regular u) →
    (∀ u ∈ us, ForgetsQ P mdl u r b) → ∀ x y,
    fkG P mdl (fun _ => 1) us t x ≤ r * fkG P mdl (fun _ => 1) us t y
  | [], _, _, _, _, _ => by simpa [fkG] using hr
  | _ :: _, 0, _, _, _, _ => by simpa [fkG] using hr
  | u :: us, t + 1, hu, hq, x, y => (hq u (by simp)).forget _
      (measurable_fkG measurable_const us t fun u' h' => hu u' (by simp [h'])) x y

omit [IsProbabilityMeasure P] in
theorem fkQ_pos_finite (hu : mdl.Regular u) (hq : ForgetsQ P mdl u r b) {h : X → ℝ≥0∞} {s : ℝ≥0}
    (hh : ∀ x y, h x ≤ s * h y) (h0 : ∀ x, h x ≠ 0 ∧ h x ≠ ⊤) (x : X) :
    fkQ P mdl u h x ≠ 0 ∧ fkQ P mdl u h x ≠ ⊤ := by
  constructor
  · intro h1
    have h2 : h x * fkQ P mdl u (fun _ => 1) x ≤ s * fkQ P mdl u h x := by
      have h3 : s * fkQ P mdl u h x = fkQ P mdl u (fun y => s * h y) x := by
        unfold fkQ
        rw [← lintegral_const_mul' _ _ ENNReal.coe_ne_top]
        exact lintegral_congr fun k => by ring
      rw [← fkQ_const hu, h3]
      exact fkQ_mono (fun y => hh x y) x
    rw [h1, mul_zero, nonpos_iff_eq_zero, mul_eq_zero] at h2
    rcases h2 with h2 | h2
    · exact (h0 x).1 h2
    · exact hq.pos x h2
  · refine ne_top_of_le_ne_top ?_ (fkQ_mono (fun y => hh y x) x)
    rw [fkQ_const hu]
    exact ENNReal.mul_ne_top (ENNReal.mul_ne_top ENNReal.coe_ne_top (h0 x).2) (hq.finite x)

theorem fkG_one_pos_finite (hr : 1 ≤ r) : ∀ (us : List Inp) (t : ℕ), (∀ u ∈ us, mdl.Regular u) →
    (∀ u ∈ us, ForgetsQ P mdl u r b) → ∀ x,
    fkG P mdl (fun _ => 1) us t x ≠ 0 ∧ fkG P mdl (fun _ => 1) us t x ≠ ⊤
  | [], _, _, _, _ => by simp [fkG]
  | _ :: _, 0, _, _, _ => by simp [fkG]
  | u :: us, t + 1, hu, hq, x => fkQ_pos_finite (hu u (by simp)) (hq u (by simp))
      (fkG_one_le hr us t (fun u' h' => hu u' (by simp [h'])) fun u' h' => hq u' (by simp [h']))
      (fkG_one_pos_finite hr us t (fun u' h' => hu u' (by simp [h'])) fun u' h' => hq u' (by simp [h'])) x

/-- One contraction. -/
theorem ratio_contract {a a' H c c' J R r : ℝ} (hr : 1 ≤ r) (ha' : 0 ≤ a') (hc : 0 ≤ c) (hH : 0 < H) (hJ : 0 < J)
    (h1 : a + a' = R * H) (h2 : c + c' = R * J) (h3 : c' ≤ r * a') (h4 : H ≤ r * J) :
    a / H ≤ c / J + R * (1 - (r ^ 2)⁻¹) := by
  have e1 : a / H = R - a' / H := by
    field_simp
    linarith
  have e2 : c' / (r ^ 2 * J) ≤ a' / H := by
    rw [div_le_div_iff₀ (by positivity) hH]
    calc c' * H ≤ r * a' * H := by gcongr
      _ ≤ r * a' * (r * J) := by gcongr
      _ = _ := by ring
  have e3 : c' / (r ^ 2 * J) = R * (r ^ 2)⁻¹ - c / J * (r ^ 2)⁻¹ := by
    field_simp
    linarith
  have e4 : c / J * (r ^ 2)⁻¹ ≤ c / J * 1 := by
    refine mul_le_mul_of_nonneg_left ?_ (by positivity)
    exact inv_le_one_of_one_le₀ (one_le_pow₀ hr)
  rw [e1]
  linarith

/-- The rate of forgetting. -/
def rate (r : ℝ≥0) : ℝ := 1 - ((r : ℝ) ^ 2)⁻¹

theorem rate_nonneg (hr : 1 ≤ r) : 0 ≤ rate r := by
  unfold rate
  have : ((r : ℝ) ^ 2)⁻¹ ≤ 1 := inv_le_one_of_one_le₀ (one_le_pow₀ (by exact_mod_cast hr))
  linarith

theorem rate_lt_one (hr : 1 ≤ r) : rate r < 1 := by
  unfold rate
  have h1 : (0 : ℝ) < r := lt_of_lt_of_le one_pos (by exact_mod_cast hr)
  have : 0 < ((r : ℝ) ^ 2)⁻¹ := by positivity
  linarith

/-- The conditional expectation of a function at time `t` given the state now: its values differ by at most
`rate r ^ t` times the range of the function. -/
theorem fkG_osc [Nonempty X] (hr : 1 ≤ r) {f : X → ℝ≥0∞} (hf : Measurable f) {c : ℝ} (hc : 0 ≤ c)
    (hfc : ∀ x, f x ≤ ENNReal.ofReal c) :
    ∀ (us : List Inp) (t : ℕ), t ≤ us.length → (∀ u ∈ us, mdl.Regular u) → (∀ u ∈ us, ForgetsQ P mdl u r b) →
    ∃ α : ℝ≥0∞, α ≠ ⊤ ∧ ∀ x, α * fkG P mdl (fun _ => 1) us t x ≤ fkG P mdl f us t x ∧
      fkG P mdl f us t x ≤ (α + ENNReal.ofReal (c * rate r ^ t)) * fkG P mdl (fun _ => 1) us t x
  | [], t, ht, _, _ => by
    obtain rfl : t = 0 := by simpa using ht
    exact ⟨0, by simp, fun x => by simpa [fkG] using hfc x⟩
  | _ :: _, 0, _, _, _ => ⟨0, by simp, fun x => by simpa [fkG] using hfc x⟩
  | u :: us, t + 1, ht, hu, hq => by
    have hu' : ∀ u' ∈ us, mdl.Regular u' := fun u' h' => hu u' (by simp [h'])
    have hq' : ∀ u' ∈ us, ForgetsQ P mdl u' r b := fun u' h' => hq u' (by simp [h'])
    have hur := hu u (by simp)
    have hqu := hq u (by simp)
    obtain ⟨α, hα, hosc⟩ := fkG_osc hr hf hc hfc us t (by simpa using ht) hu' hq'
    have hh := fkG_one_le hr us t hu' hq'
    have hpf := fkG_one_pos_finite hr us t hu' hq'
    have mh := measurable_fkG (P := P) (mdl := mdl) (f := fun _ => 1) measurable_const us t hu'
    have mg := measurable_fkG (P := P) (mdl := mdl) hf us t hu'
    simp only [fkG]
    obtain ⟨h, hhd⟩ : ∃ h, h = fkG P mdl (fun _ => 1) us t := ⟨_, rfl⟩
    obtain ⟨g, hgd⟩ : ∃ g, g = fkG P mdl f us t := ⟨_, rfl⟩
    rw [← hhd] at hh hpf mh hosc ⊢
    rw [← hgd] at mg hosc ⊢
    have hR0 : 0 ≤ c * rate r ^ t := mul_nonneg hc (pow_nonneg (rate_nonneg hr) t)
    obtain ⟨R, hR⟩ : ∃ R, R = ENNReal.ofReal (c * rate r ^ t) := ⟨_, rfl⟩
    rw [← hR] at hosc
    obtain ⟨F, hF⟩ : ∃ F : X → ℝ≥0∞, F = fun x => g x - α * h x := ⟨_, rfl⟩
    obtain ⟨F', hF'⟩ : ∃ F' : X → ℝ≥0∞, F' = fun x => (α + R) * h x - g x := ⟨_, rfl⟩
    have mF : Measurable F := by rw [hF]; exact mg.sub (mh.const_mul α)
    have mF' : Measurable F' := by rw [hF']; exact (mh.const_mul _).sub mg
    have e1 : g = fun x => F x + α * h x := by
      funext x
      rw [hF]
      exact (tsub_add_cancel_of_le (hosc x).1).symm
    have e2 : ∀ x, F x + F' x = R * h x := by
      intro x
      have h1 : g x ≠ ⊤ := ne_top_of_le_ne_top (ENNReal.mul_ne_top (ENNReal.add_ne_top.mpr ⟨hα, by
        rw [hR]; exact ENNReal.ofReal_ne_top⟩) (hpf x).2) (hosc x).2
      have h2 : α * h x + (F x + F' x) = α * h x + R * h x := by
        rw [← add_assoc, hF, hF']
        simp only
        rw [add_tsub_cancel_of_le (hosc x).1, add_tsub_cancel_of_le (hosc x).2, add_mul]
      exact (ENNReal.add_right_inj (ENNReal.mul_ne_top hα (hpf x).2)).mp h2
    have q1 : ∀ x, fkQ P mdl u g x = fkQ P mdl u F x + α * fkQ P mdl u h x := fun x => by
      rw [e1]
      exact fkQ_add_mul hur mh α x
    have q2 : ∀ x, fkQ P mdl u F x + fkQ P mdl u F' x = R * fkQ P mdl u h x := by
      intro x
      have h1 := fkQ_add_mul (P := P) hur mF' 1 x (f := F)
      simp only [one_mul] at h1
      rw [← h1]
      have h2 := fkQ_add_mul (P := P) hur mh R x (f := fun _ => 0)
      simp only [zero_add] at h2
      rw [show (fun x => F x + F' x) = fun x => R * h x from funext e2, h2]
      simp [fkQ]
    have hQpf : ∀ x, fkQ P mdl u h x ≠ 0 ∧ fkQ P mdl u h x ≠ ⊤ := fkQ_pos_finite hur hqu hh hpf
    have hRt : R ≠ ⊤ := by rw [hR]; exact ENNReal.ofReal_ne_top
    have hQF : ∀ x, fkQ P mdl u F x ≠ ⊤ := fun x =>
      ne_top_of_le_ne_top (ENNReal.mul_ne_top hRt (hQpf x).2) (le_self_add.trans (q2 x).le)
    have hQF' : ∀ x, fkQ P mdl u F' x ≠ ⊤ := fun x =>
      ne_top_of_le_ne_top (ENNReal.mul_ne_top hRt (hQpf x).2) (le_add_self.trans (q2 x).le)
    -- the values of the ratio at any two states
    have key : ∀ x y, fkQ P mdl u F x / fkQ P mdl u h x ≤
        fkQ P mdl u F y / fkQ P mdl u h y + ENNReal.ofReal (c * rate r ^ (t + 1)) := by
      intro x y
      have hx := ENNReal.toReal_pos (hQpf x).1 (hQpf x).2
      have hy := ENNReal.toReal_pos (hQpf y).1 (hQpf y).2
      have r1 : ∀ x, (fkQ P mdl u F x).toReal + (fkQ P mdl u F' x).toReal =
          c * rate r ^ t * (fkQ P mdl u h x).toReal := by
        intro x
        rw [← ENNReal.toReal_add (hQF x) (hQF' x), q2 x, ENNReal.toReal_mul, hR, ENNReal.toReal_ofReal hR0]
      have r3 : (fkQ P mdl u F' y).toReal ≤ r * (fkQ P mdl u F' x).toReal := by
        have := ENNReal.toReal_mono (ENNReal.mul_ne_top ENNReal.coe_ne_top (hQF' x)) (hqu.forget F' mF' y x)
        simpa using this
      have r4 : (fkQ P mdl u h x).toReal ≤ r * (fkQ P mdl u h y).toReal := by
        have := ENNReal.toReal_mono (ENNReal.mul_ne_top ENNReal.coe_ne_top (hQpf y).2) (hqu.forget h mh x y)
        simpa using this
      have h5 := ratio_contract (by exact_mod_cast hr : (1 : ℝ) ≤ r) ENNReal.toReal_nonneg
        ENNReal.toReal_nonneg hx hy (r1 x) (r1 y) r3 r4
      have h6 : c * rate r ^ t * (1 - ((r : ℝ) ^ 2)⁻¹) = c * rate r ^ (t + 1) := by
        rw [pow_succ, rate]
        ring
      rw [h6] at h5
      have h7 := ENNReal.ofReal_le_ofReal h5
      rw [ENNReal.ofReal_add (by positivity) (mul_nonneg hc (pow_nonneg (rate_nonneg hr) _)),
        ENNReal.ofReal_div_of_pos hx, ENNReal.ofReal_div_of_pos hy, ENNReal.ofReal_toReal (hQF x),
        ENNReal.ofReal_toReal (hQF y), ENNReal.ofReal_toReal (hQpf x).2, ENNReal.ofReal_toReal (hQpf y).2] at h7
      exact h7
    obtain ⟨β, hβ⟩ : ∃ β, β = ⨅ y, fkQ P mdl u F y / fkQ P mdl u h y := ⟨_, rfl⟩
    have hβle : ∀ x, β * fkQ P mdl u h x ≤ fkQ P mdl u F x := by
      intro x
      rw [← ENNReal.le_div_iff_mul_le (.inl (hQpf x).1) (.inl (hQpf x).2), hβ]
      exact iInf_le _ x
    have hβge : ∀ x, fkQ P mdl u F x ≤ (β + ENNReal.ofReal (c * rate r ^ (t + 1))) * fkQ P mdl u h x := by
      intro x
      rw [← ENNReal.div_le_iff (hQpf x).1 (hQpf x).2, hβ, ENNReal.iInf_add]
      exact le_iInf fun y => key x y
    have hβt : β ≠ ⊤ := by
      obtain ⟨x⟩ := ‹Nonempty X›
      intro h1
      have := hβle x
      rw [h1, ENNReal.top_mul (hQpf x).1] at this
      exact hQF x (top_le_iff.mp this)
    refine ⟨α + β, ENNReal.add_ne_top.mpr ⟨hα, hβt⟩, fun x => ⟨?_, ?_⟩⟩
    · rw [q1, add_mul, add_comm]
      exact add_le_add (hβle x) le_rfl
    · rw [q1, add_assoc, add_mul, add_comm]
      exact add_le_add le_rfl (hβge x)

/-- No weighted value exceeds `b * r` times the mean of the weighted values. -/
theorem weighted_fkG_le (hr : 1 ≤ r) (us : List Inp) (t : ℕ) (hu : ∀ u' ∈ us, mdl.Regular u')
    (hq : ∀ u' ∈ us, ForgetsQ P mdl u' r b) (hur : mdl.Regular u) (hqu : ForgetsQ P mdl u r b) (x : X) (k : K) (y : X) :
    weighted mdl u (fkG P mdl (fun _ => 1) us t) x k ≤ b * r * fkQ P mdl u (fkG P mdl (fun _ => 1) us t) y := by
  have hh := fkG_one_le hr us t hu hq
  unfold weighted
  refine (mul_le_mul_left (hqu.bound _ _ y) _).trans ?_
  rw [mul_assoc, mul_assoc]
  refine mul_le_mul_right ?_ _
  have h3 : r * fkQ P mdl u (fkG P mdl (fun _ => 1) us t) y =
      fkQ P mdl u (fun y => r * fkG P mdl (fun _ => 1) us t y) y := by
    unfold fkQ
    rw [← lintegral_const_mul' _ _ ENNReal.coe_ne_top]
    exact lintegral_congr fun k => by ring
  rw [h3, mul_comm, ← fkQ_const hur]
  exact fkQ_mono (fun z => hh _ z) y

end forget

/-! ### Errors of ratios -/

section ratio

variable {Ω : Type*} [MeasurableSpace Ω] {μ : Measure Ω} [IsProbabilityMeasure μ]

/-- The mean squared error from the second moment and the mean. -/
theorem sq_error {Y : Ω → ℝ≥0∞} (hY : Measurable Y) (hYt : ∀ w, Y w ≠ ⊤) {g C a δ : ℝ≥0∞} (hC : C ≠ ⊤) (ha : a ≠ ⊤)
    (h1 : ∫⁻ w, Y w ^ 2 ∂μ ≤ g ^ 2 + a * C ^ 2) (h2 : g ≤ (∫⁻ w, Y w ∂μ) + δ * C) (h3 : g ≤ C) :
    ∫⁻ w, ENNReal.ofReal (((Y w).toReal - g.toReal) ^ 2) ∂μ ≤ (a + 2 * δ) * C ^ 2 := by
  have hgt : g ≠ ⊤ := ne_top_of_le_ne_top hC h3
  have h4 : ∀ k, ENNReal.ofReal (((Y k).toReal - g.toReal) ^ 2) + 2 * g * Y k = Y k ^ 2 + g ^ 2 := fun k =>
    ofReal_sub_sq (hYt k) hgt
  have h5 : ∫⁻ k, Y k ∂μ ≠ ⊤ := by
    refine ne_top_of_le_ne_top (b := ∫⁻ k, 1 + Y k ^ 2 ∂μ) ?_ (lintegral_mono fun k => ?_)
    · rw [lintegral_add_left measurable_const, lintegral_const, measure_univ, mul_one]
      refine ENNReal.add_ne_top.mpr ⟨ENNReal.one_ne_top, ne_top_of_le_ne_top ?_ h1⟩
      exact ENNReal.add_ne_top.mpr ⟨ENNReal.pow_ne_top hgt, ENNReal.mul_ne_top ha (ENNReal.pow_ne_top hC)⟩
    · rcases le_total (Y k) 1 with h6 | h6
      · exact h6.trans le_self_add
      · refine le_add_left ?_
        rw [sq]
        exact le_mul_of_one_le_right' h6
  have h6 : (∫⁻ k, ENNReal.ofReal (((Y k).toReal - g.toReal) ^ 2) ∂μ) + 2 * g * ∫⁻ k, Y k ∂μ =
      (∫⁻ k, Y k ^ 2 ∂μ) + g ^ 2 := by
    rw [← lintegral_const_mul _ hY, ← lintegral_add_right _ (hY.const_mul _)]
    simp only [h4]
    rw [lintegral_add_right _ measurable_const, lintegral_const, measure_univ, mul_one]
  refine ENNReal.le_of_add_le_add_right (a := 2 * g * ∫⁻ k, Y k ∂μ)
    (ENNReal.mul_ne_top (ENNReal.mul_ne_top (by norm_num) hgt) h5) ?_
  rw [h6]
  calc _ ≤ g ^ 2 + a * C ^ 2 + g ^ 2 := by gcongr
    _ = 2 * g * g + a * C ^ 2 := by ring
    _ ≤ 2 * g * ((∫⁻ k, Y k ∂μ) + δ * C) + a * C ^ 2 := by gcongr
    _ = 2 * g * (∫⁻ k, Y k ∂μ) + 2 * g * (δ * C) + a * C ^ 2 := by ring
    _ ≤ 2 * g * (∫⁻ k, Y k ∂μ) + 2 * C * (δ * C) + a * C ^ 2 := by gcongr
    _ = _ := by ring

/-- The mean absolute error from the mean squared error. -/
theorem abs_error {Y : Ω → ℝ} {s : ℝ} (hs : 0 ≤ s)
    (h : ∫⁻ w, ENNReal.ofReal (Y w ^ 2) ∂μ ≤ ENNReal.ofReal (s ^ 2)) :
    ∫⁻ w, ENNReal.ofReal |Y w| ∂μ ≤ ENNReal.ofReal s := by
  refine ENNReal.le_of_forall_pos_le_add fun ε hε _ => ?_
  have hε' : (0 : ℝ) < ε := by exact_mod_cast hε
  have hp : 0 < s + ε := by positivity
  have h1 : ∀ w, ENNReal.ofReal |Y w| ≤
      ENNReal.ofReal (1 / (2 * (s + ε))) * ENNReal.ofReal (Y w ^ 2) + ENNReal.ofReal ((s + ε) / 2) := by
    intro w
    rw [← ENNReal.ofReal_mul (by positivity), ← ENNReal.ofReal_add (by positivity) (by positivity)]
    refine ENNReal.ofReal_le_ofReal ?_
    have h2 : 1 / (2 * (s + ε)) * Y w ^ 2 + (s + ε) / 2 = (|Y w| ^ 2 + (s + ε) ^ 2) / (2 * (s + ε)) := by
      rw [sq_abs]
      field_simp
    rw [h2, le_div_iff₀ (by positivity)]
    nlinarith [sq_nonneg (|Y w| - (s + ε))]
  refine (lintegral_mono h1).trans ?_
  rw [lintegral_add_right _ measurable_const, lintegral_const, measure_univ, mul_one,
    lintegral_const_mul' _ _ ENNReal.ofReal_ne_top]
  calc _ ≤ ENNReal.ofReal (1 / (2 * (s + ε))) * ENNReal.ofReal (s ^ 2) + ENNReal.ofReal ((s + ε) / 2) := by gcongr
    _ = ENNReal.ofReal (1 / (2 * (s + ε)) * s ^ 2 + (s + ε) / 2) := by
        rw [← ENNReal.ofReal_mul (by positivity), ← ENNReal.ofReal_add (by positivity) (by positivity)]
    _ ≤ ENNReal.ofReal (s + ε) := by
        refine ENNReal.ofReal_le_ofReal ?_
        have h3 : 1 / (2 * (s + ε)) * s ^ 2 ≤ (s + ε) / 2 := by
          rw [one_div_mul_eq_div, div_le_div_iff₀ (by positivity) (by norm_num)]
          nlinarith
        linarith
    _ = _ := by
        rw [ENNReal.ofReal_add hs hε'.le]
        simp

/-- The error of a ratio of estimates. -/
theorem ratio_error {A B : Ω → ℝ} (hA : Measurable A) {a b R M v : ℝ} (hb : 0 < b) (hR : 0 ≤ R)
    (hM : 0 ≤ M) (hv : 0 ≤ v) (hA0 : ∀ w, 0 ≤ A w) (hB0 : ∀ w, 0 ≤ B w) (hle : ∀ w, A w ≤ R * B w)
    (h1 : ∫⁻ w, ENNReal.ofReal ((A w - a) ^ 2) ∂μ ≤ ENNReal.ofReal ((v * (R * M)) ^ 2))
    (h2 : ∫⁻ w, ENNReal.ofReal ((B w - b) ^ 2) ∂μ ≤ ENNReal.ofReal ((v * M) ^ 2)) :
    ∫⁻ w, ENNReal.ofReal |A w / B w - a / b| ∂μ ≤ ENNReal.ofReal (2 * v * R * (M / b)) := by
  have e1 := abs_error (by positivity) h1
  have e2 := abs_error (by positivity) h2
  have hpt : ∀ w, ENNReal.ofReal |A w / B w - a / b| ≤
      ENNReal.ofReal (1 / b) * (ENNReal.ofReal |A w - a| + ENNReal.ofReal R * ENNReal.ofReal |B w - b|) := by
    intro w
    rw [← ENNReal.ofReal_mul hR, ← ENNReal.ofReal_add (abs_nonneg _) (by positivity),
      ← ENNReal.ofReal_mul (by positivity)]
    refine ENNReal.ofReal_le_ofReal ?_
    have hAB : 0 ≤ A w / B w ∧ A w / B w ≤ R := by
      refine ⟨div_nonneg (hA0 w) (hB0 w), ?_⟩
      rcases (hB0 w).eq_or_lt with h | h
      · rw [← h, div_zero]
        exact hR
      · rw [div_le_iff₀ h]
        exact hle w
    have h3 : A w / B w - a / b = 1 / b * ((A w - a) + A w / B w * (b - B w)) := by
      rcases (hB0 w).eq_or_lt with h | h
      · have hz : A w = 0 := le_antisymm (by simpa [← h] using hle w) (hA0 w)
        rw [← h, hz]
        simp
        ring
      · field_simp
        ring
    rw [h3, abs_mul, abs_of_pos (by positivity : 0 < 1 / b)]
    refine mul_le_mul_of_nonneg_left ((abs_add_le _ _).trans ?_) (by positivity)
    rw [abs_mul, abs_of_nonneg hAB.1, abs_sub_comm b]
    gcongr
    exact hAB.2
  refine (lintegral_mono hpt).trans ?_
  have m1 : Measurable fun w => ENNReal.ofReal |A w - a| :=
    ENNReal.measurable_ofReal.comp (continuous_abs.measurable.comp (hA.sub_const a))
  rw [lintegral_const_mul' _ _ ENNReal.ofReal_ne_top, lintegral_add_left m1,
    lintegral_const_mul' _ _ ENNReal.ofReal_ne_top]
  calc _ ≤ ENNReal.ofReal (1 / b) * (ENNReal.ofReal (v * (R * M)) + ENNReal.ofReal R * ENNReal.ofReal (v * M)) := by
        gcongr
    _ = _ := by
        rw [← ENNReal.ofReal_mul hR, ← ENNReal.ofReal_add (by positivity) (by positivity),
          ← ENNReal.ofReal_mul (by positivity)]
        congr 1
        field_simp
        ring

end ratio

/-! ### Errors of the filter -/

section filter

variable [MeasurableSpace K] [MeasurableSpace X] {P : Measure K} [IsProbabilityMeasure P] {mdl : FKModel K X Inp}
  {I : K → (Fin N → Fl) → Fin N → Fin N} {L : K → (Fin N → Fl) → Fin N → Fl} {u : Inp} {r b : ℝ≥0} {κ δ : ℝ≥0∞}

/-- The weighted average over the particles. -/
def avgE (g : X → ℝ≥0∞) (c : Core X N) : ℝ≥0∞ := ∑ i, ENNReal.ofReal (nw c.2.1 i) * g (c.1 i)

omit [MeasurableSpace X] in
theorem avgE_add_mul (f g : X → ℝ≥0∞) (a : ℝ≥0∞) (c : Core X N) :
    avgE (fun x => f x + a * g x) c = avgE f c + a * avgE g c := by
  unfold avgE
  rw [Finset.mul_sum, ← Finset.sum_add_distrib]
  exact Finset.sum_congr rfl fun i _ => by ring

omit [MeasurableSpace X] in
theorem avgE_const {c : Core X N} (hc : IsLogits c.2.1) (a : ℝ≥0∞) : avgE (fun _ => a) c = a := by
  unfold avgE
  rw [← Finset.sum_mul, ← ENNReal.ofReal_sum_of_nonneg fun i _ => nw_nonneg _ i, nw_sum hc, ENNReal.ofReal_one, one_mul]

omit [MeasurableSpace X] in
theorem avgE_mono {f g : X → ℝ≥0∞} (h : ∀ x, f x ≤ g x) (c : Core X N) : avgE f c ≤ avgE g c :=
  Finset.sum_le_sum fun _ _ => mul_le_mul_right (h _) _

omit [MeasurableSpace X] in
theorem avgE_ne_top {f : X → ℝ≥0∞} (h : ∀ x, f x ≠ ⊤) (c : Core X N) : avgE f c ≠ ⊤ :=
  ENNReal.sum_ne_top.mpr fun _ _ => ENNReal.mul_ne_top ENNReal.ofReal_ne_top (h _)

omit [MeasurableSpace X] in
theorem avgE_ne_zero {f : X → ℝ≥0∞} (h : ∀ x, f x ≠ 0) {c : Core X N} (hc : IsLogits c.2.1) : avgE f c ≠ 0 := by
  intro h1
  have h2 := (Finset.sum_eq_zero_iff).mp h1
  have h3 := nw_sum hc
  have h4 : ∑ i, nw c.2.1 i = 0 := by
    refine Finset.sum_eq_zero fun i hi => ?_
    have h5 := h2 i hi
    rw [mul_eq_zero, ENNReal.ofReal_eq_zero] at h5
    rcases h5 with h5 | h5
    · exact le_antisymm h5 (nw_nonneg _ i)
    · exact absurd h5 (h _)
  linarith

theorem measurable_avgE {g : X → ℝ≥0∞} (hg : Measurable g) : Measurable (avgE g : Core X N → ℝ≥0∞) := by
  refine Finset.measurable_sum _ fun i _ => ?_
  have h2 : Measurable fun c : Core X N => ENNReal.ofReal (nw c.2.1 i) :=
    ENNReal.measurable_ofReal.comp ((measurable_nw i).comp (measurable_fst.comp measurable_snd))
  exact h2.mul (hg.comp ((measurable_pi_apply i).comp measurable_fst))

omit [MeasurableSpace X] in
theorem est_eq_avgE (g : X → ℝ≥0∞) (c : Core X N) : est g c = ENNReal.ofReal c.2.2.lik * avgE g c := rfl

/-- The law of the particles after a step: their estimates have mean close to `e` and small second moment. -/
structure StepLaw {Ω : Type*} [MeasurableSpace Ω] (μ : Measure Ω) (c' : Ω → Core X N) (P : Measure K)
    (mdl : FKModel K X Inp) (u : Inp) (e : (X → ℝ≥0∞) → ℝ≥0∞) (a δ : ℝ≥0∞) : Prop where
  add : ∀ (F h : X → ℝ≥0∞) (α : ℝ≥0∞), Measurable F → Measurable h →
    e (fun x => F x + α * h x) = e F + α * e h
  lower : ∀ (q : ℝ≥0∞) (h : X → ℝ≥0∞), Measurable h → (∀ y, q ≤ fkQ P mdl u h y) → q ≤ e h
  upper : ∀ (C : ℝ≥0∞) (h : X → ℝ≥0∞), Measurable h → (∀ x k, weighted mdl u h x k ≤ C) → e h ≤ C
  measurable : Measurable c'
  alive : ∀ w, IsLogits (c' w).2.1
  pos : ∀ w, 0 < (c' w).2.2.lik
  second : ∀ (C : ℝ≥0∞) (h : X → ℝ≥0∞), Measurable h → (∀ x k, weighted mdl u h x k ≤ C) →
    ∫⁻ w, est h (c' w) ^ 2 ∂μ ≤ e h ^ 2 + a * C ^ 2
  mean : ∀ (C : ℝ≥0∞) (h : X → ℝ≥0∞), Measurable h → (∀ x k, weighted mdl u h x k ≤ C) →
    e h ≤ (∫⁻ w, est h (c' w) ∂μ) + δ * C

/-- The error that one step adds to an average `t` steps later. -/
theorem StepLaw.error [Nonempty X] {Ω : Type*} [MeasurableSpace Ω] {μ : Measure Ω} [IsProbabilityMeasure μ] {c' : Ω → Core X N}
    {e : (X → ℝ≥0∞) → ℝ≥0∞} {a : ℝ≥0∞} (hs : StepLaw μ c' P mdl u e a δ) (ha : a ≠ ⊤) {v : ℝ} (hv : 0 ≤ v)
    (hav : a + 2 * δ ≤ ENNReal.ofReal (v ^ 2)) (hr : 1 ≤ r) (hur : mdl.Regular u) (hqu : ForgetsQ P mdl u r b)
    {us : List Inp} {t : ℕ} (ht : t ≤ us.length) (hu : ∀ u' ∈ us, mdl.Regular u')
    (hq : ∀ u' ∈ us, ForgetsQ P mdl u' r b) {f : X → ℝ≥0∞} (hf : Measurable f) {c : ℝ} (hc : 0 ≤ c)
    (hfc : ∀ x, f x ≤ ENNReal.ofReal c) :
    ∫⁻ w, ENNReal.ofReal |(avgE (fkG P mdl f us t) (c' w)).toReal /
          (avgE (fkG P mdl (fun _ => 1) us t) (c' w)).toReal -
        (e (fkG P mdl f us t)).toReal / (e (fkG P mdl (fun _ => 1) us t)).toReal| ∂μ ≤
      ENNReal.ofReal (2 * v * b * r * c * rate r ^ t) := by
  obtain ⟨α, hα, hosc⟩ := fkG_osc hr hf hc hfc us t ht hu hq
  have hpf := fkG_one_pos_finite hr us t hu hq
  have mh := measurable_fkG (P := P) (mdl := mdl) (f := fun _ => 1) measurable_const us t hu
  have mg := measurable_fkG (P := P) (mdl := mdl) hf us t hu
  have hw := weighted_fkG_le hr us t hu hq hur hqu
  have hQ := fkQ_pos_finite hur hqu (fkG_one_le hr us t hu hq) hpf
  have hQ1 := fun x y => hqu.forget _ mh x y
  obtain ⟨h, hhd⟩ : ∃ h, h = fkG P mdl (fun _ => 1) us t := ⟨_, rfl⟩
  obtain ⟨g, hgd⟩ : ∃ g, g = fkG P mdl f us t := ⟨_, rfl⟩
  rw [← hhd] at hpf mh hosc hw hQ hQ1 ⊢
  rw [← hgd] at mg hosc ⊢
  have hR0 : 0 ≤ c * rate r ^ t := mul_nonneg hc (pow_nonneg (rate_nonneg hr) t)
  obtain ⟨R, hR⟩ : ∃ R, R = c * rate r ^ t := ⟨_, rfl⟩
  rw [← hR] at hosc hR0
  obtain ⟨F, hF⟩ : ∃ F : X → ℝ≥0∞, F = fun x => g x - α * h x := ⟨_, rfl⟩
  have mF : Measurable F := by rw [hF]; exact mg.sub (mh.const_mul α)
  have e1 : g = fun x => F x + α * h x := by
    funext x
    rw [hF]
    exact (tsub_add_cancel_of_le (hosc x).1).symm
  have e2 : ∀ x, F x ≤ ENNReal.ofReal R * h x := by
    intro x
    rw [hF]
    refine tsub_le_iff_left.mpr ?_
    rw [← add_mul]
    exact (hosc x).2
  have hFt : ∀ x, F x ≠ ⊤ := fun x =>
    ne_top_of_le_ne_top (ENNReal.mul_ne_top ENNReal.ofReal_ne_top (hpf x).2) (e2 x)
  -- the bound of the weighted values
  obtain ⟨x0⟩ := ‹Nonempty X›
  have hM : ∀ x k, weighted mdl u h x k ≤ b * r * e h := by
    intro x k
    by_cases hb0 : b = 0
    · have := hw x k x0
      simpa [hb0] using this
    have hbr : (b * r : ℝ≥0∞) ≠ 0 := by
      rw [← ENNReal.coe_mul]
      simp only [ne_eq, ENNReal.coe_eq_zero, mul_eq_zero, not_or]
      exact ⟨hb0, (lt_of_lt_of_le one_pos hr).ne'⟩
    have hbt : (b * r : ℝ≥0∞) ≠ ⊤ := ENNReal.mul_ne_top ENNReal.coe_ne_top ENNReal.coe_ne_top
    rw [← ENNReal.div_le_iff' hbr hbt]
    refine hs.lower _ h mh fun y => ?_
    rw [ENNReal.div_le_iff' hbr hbt]
    exact hw x k y
  have heht : e h ≠ ⊤ := by
    refine ne_top_of_le_ne_top (ENNReal.mul_ne_top (ENNReal.mul_ne_top ENNReal.coe_ne_top ENNReal.coe_ne_top)
      (hQ x0).2) (hs.upper _ h mh fun x k => hw x k x0)
  have heh0 : e h ≠ 0 := by
    intro h1
    have h2 := hs.lower (fkQ P mdl u h x0 / r) h mh fun y => by
      rw [ENNReal.div_le_iff' (by simpa using (lt_of_lt_of_le one_pos hr).ne') ENNReal.coe_ne_top]
      exact hQ1 x0 y
    rw [h1, nonpos_iff_eq_zero, ENNReal.div_eq_zero_iff] at h2
    rcases h2 with h2 | h2
    · exact (hQ x0).1 h2
    · exact ENNReal.coe_ne_top h2
  have hFM : ∀ x k, weighted mdl u F x k ≤ ENNReal.ofReal R * (b * r * e h) := by
    intro x k
    refine le_trans ?_ (mul_le_mul_right (hM x k) _)
    unfold weighted
    rw [mul_left_comm]
    exact mul_le_mul_right (e2 _) _
  have hCt : (b * r * e h : ℝ≥0∞) ≠ ⊤ :=
    ENNReal.mul_ne_top (ENNReal.mul_ne_top ENNReal.coe_ne_top ENNReal.coe_ne_top) heht
  have hCF : ENNReal.ofReal R * (b * r * e h) ≠ ⊤ := ENNReal.mul_ne_top ENNReal.ofReal_ne_top hCt
  have heF : e F ≠ ⊤ := ne_top_of_le_ne_top hCF (hs.upper _ F mF hFM)
  have hest : ∀ (q : X → ℝ≥0∞), (∀ x, q x ≠ ⊤) → ∀ w, est q (c' w) ≠ ⊤ := fun q hq w =>
    ENNReal.mul_ne_top ENNReal.ofReal_ne_top (avgE_ne_top hq _)
  have mest : ∀ (q : X → ℝ≥0∞), Measurable q → Measurable fun w => est q (c' w) := fun q hq =>
    (measurable_est hq).comp hs.measurable
  have s1 := sq_error (mest F mF) (hest F hFt) hCF ha (hs.second _ F mF hFM) (hs.mean _ F mF hFM) (hs.upper _ F mF hFM)
  have s2 := sq_error (mest h mh) (hest h fun x => (hpf x).2) hCt ha (hs.second _ h mh hM) (hs.mean _ h mh hM)
    (hs.upper _ h mh hM)
  obtain ⟨M, hMd⟩ : ∃ M : ℝ, M = b * r * (e h).toReal := ⟨_, rfl⟩
  have hM0 : 0 ≤ M := by rw [hMd]; positivity
  have hMe : (b * r * e h : ℝ≥0∞) = ENNReal.ofReal M := by
    rw [hMd, ENNReal.ofReal_mul (by positivity), ENNReal.ofReal_mul (by positivity), ENNReal.ofReal_toReal heht]
    simp
  have s1' := s1.trans (mul_le_mul_left hav _)
  have s2' := s2.trans (mul_le_mul_left hav _)
  rw [hMe, ← ENNReal.ofReal_mul hR0, ← ENNReal.ofReal_pow (by positivity), ← ENNReal.ofReal_mul (by positivity),
    ← mul_pow] at s1'
  rw [hMe, ← ENNReal.ofReal_pow (by positivity), ← ENNReal.ofReal_mul (by positivity), ← mul_pow] at s2'
  have heh : 0 < (e h).toReal := ENNReal.toReal_pos heh0 heht
  have key := ratio_error (μ := μ) (A := fun w => (est F (c' w)).toReal) (B := fun w => (est h (c' w)).toReal)
    (mest F mF).ennreal_toReal heh hR0 hM0 hv (fun w => ENNReal.toReal_nonneg)
    (fun w => ENNReal.toReal_nonneg) (fun w => by
      have h1 : est F (c' w) ≤ ENNReal.ofReal R * est h (c' w) := by
        rw [est_eq_avgE, est_eq_avgE, mul_left_comm]
        refine mul_le_mul_right ?_ _
        have h2 := avgE_mono e2 (c' w)
        have h3 := avgE_add_mul (fun _ => 0) h (ENNReal.ofReal R) (c' w)
        simp only [zero_add] at h3
        rw [h3] at h2
        simpa [avgE] using h2
      have h4 := ENNReal.toReal_mono (ENNReal.mul_ne_top ENNReal.ofReal_ne_top (hest h (fun x => (hpf x).2) w)) h1
      rwa [ENNReal.toReal_mul, ENNReal.toReal_ofReal hR0] at h4) s1' s2'
  have hbound : 2 * v * R * (M / (e h).toReal) = 2 * v * b * r * c * rate r ^ t := by
    rw [hMd, hR]
    field_simp
  rw [hbound] at key
  refine le_trans (le_of_eq (lintegral_congr fun w => ?_)) key
  have hzp := hs.pos w
  have hav0 : (avgE h (c' w)).toReal ≠ 0 :=
    (ENNReal.toReal_pos (avgE_ne_zero (fun x => (hpf x).1) (hs.alive w)) (avgE_ne_top (fun x => (hpf x).2) _)).ne'
  congr 2
  rw [e1, avgE_add_mul, hs.add F h α mF mh, est_eq_avgE, est_eq_avgE,
    ENNReal.toReal_add (avgE_ne_top hFt _) (ENNReal.mul_ne_top hα (avgE_ne_top (fun x => (hpf x).2) _)),
    ENNReal.toReal_add heF (ENNReal.mul_ne_top hα heht)]
  simp only [ENNReal.toReal_mul, ENNReal.toReal_ofReal hzp.le]
  have := hzp.ne'
  have := heh.ne'
  field_simp
  ring

omit [MeasurableSpace X] [MeasurableSpace K] [IsProbabilityMeasure P] in
theorem coreStep_alive {x : Fin N → X} {l : Fin N → Fl} (hd : ∀ x x', (mdl.logPotential x x' u).IsFin)
    (ks : Fin (N + 1) → K) (hl : IsLogits (L (ks 0) l)) :
    IsLogits (coreStep mdl I L u ks (x, l, 0)).2.1 ∧ 0 < (coreStep mdl I L u ks (x, l, 0)).2.2.lik := by
  have h1 : IsLogits (coreStep mdl I L u ks (x, l, 0)).2.1 := by
    obtain ⟨i, hi⟩ := hl.2
    exact ⟨fun m => (hd _ _).isLog.add (hl.1 m), i, (hd _ _).add hi⟩
  refine ⟨h1, ?_⟩
  have h2 : (coreStep mdl I L u ks (x, l, 0)).2.2 = Fl.logsumexp (coreStep mdl I L u ks (x, l, 0)).2.1 -
      Fl.logsumexp (L (ks 0) l) + 0 := rfl
  rw [h2, logsumexp_eq h1, logsumexp_eq hl]
  exact Real.exp_pos _

/-- One step from a given state. -/
theorem stepLaw_core (hR : UnbiasedWeights P I L) (hK : Concentrates P I L κ) (hu : mdl.Regular u)
    (hd : ∀ x x', (mdl.logPotential x x' u).IsFin) {c : Core X N} (hc : IsLogits c.2.1) :
    StepLaw (Measure.pi fun _ : Fin (N + 1) => P) (fun ks => coreStep mdl I L u ks (c.1, c.2.1, 0)) P mdl u
      (fun g => avgE (fkQ P mdl u g) c) (2 * κ) 0 := by
  have hlL : ∀ k, IsLogits (L k c.2.1) := fun k => hR.isLogits k _ hc
  have hest : ∀ (g : X → ℝ≥0∞) ks, est g (coreStep mdl I L u ks (c.1, c.2.1, 0)) =
      ∑ m : Fin N, ENNReal.ofReal (nw (L (ks 0) c.2.1) m) * weighted mdl u g (c.1 (I (ks 0) c.2.1 m)) (ks m.succ) := by
    intro g ks
    rw [est_coreStep hu.isLog g ks (c := (c.1, c.2.1, 0)) trivial (hlL _)]
    simp only [Fl.lik, Real.exp_zero, ENNReal.ofReal_one, one_mul]
    rfl
  have hw : ∀ (g : X → ℝ≥0∞), Measurable g → ∀ i, Measurable fun k => weighted mdl u g (c.1 i) k := fun g hg i =>
    (measurable_weighted hu hg).comp (measurable_const.prodMk measurable_id)
  refine ⟨fun F h α mF mh => ?_, fun q h mh hq => ?_, fun C h mh hC => ?_, ?_, fun ks => ?_, fun ks => ?_,
    fun C h mh hC => ?_, fun C h mh hC => ?_⟩
  · rw [← avgE_add_mul]
    congr 1
    funext x
    exact fkQ_add_mul hu mh α x
  · rw [← avgE_const hc q]
    exact avgE_mono hq c
  · rw [← avgE_const hc C]
    refine avgE_mono (fun x => ?_) c
    refine (lintegral_mono fun k => hC x k).trans_eq ?_
    rw [lintegral_const, measure_univ, mul_one]
  · exact (measurable_coreStep hR hu).comp (measurable_id.prodMk measurable_const)
  · exact (coreStep_alive hd ks (hlL _)).1
  · exact (coreStep_alive hd ks (hlL _)).2
  · simp only [hest]
    exact lintegral_sq_resampled hR hK hc (w := fun i k => weighted mdl u h (c.1 i) k) (hw h mh) fun i k => hC _ _
  · simp only [hest]
    rw [lintegral_resampled hR hc (w := fun i k => weighted mdl u h (c.1 i) k) (hw h mh), zero_mul, add_zero]
    exact le_rfl

variable {rng : Rng K}

/-- The first step. -/
theorem stepLaw_first [NeZero N] (h : IdealRng rng P) (hR : UnbiasedWeights P I L) (hF : FirstStep rng.toPrng P I L δ)
    {u0 : Inp} (h0 : Measurable fun k => mdl.initSample k u0) (hu : mdl.Regular u)
    (hd : ∀ x x', (mdl.logPotential x x' u).IsFin) :
    StepLaw P (fun k => coreStep mdl I L u (rng.nth k (N + 1)) (coreInit mdl u0 (rng.nth k N))) P mdl u
      (fun g => ∫⁻ x, fkQ P mdl u g x ∂mdl.init P u0) δ δ := by
  have hw : ∀ g : X → ℝ≥0∞, Measurable g →
      Measurable fun q : K × K => weighted mdl u g (mdl.initSample q.1 u0) q.2 := fun g hg =>
    (measurable_weighted hu hg).comp ((h0.comp measurable_fst).prodMk measurable_snd)
  have h6 : ∀ g : X → ℝ≥0∞, Measurable g → ∫⁻ q, weighted mdl u g (mdl.initSample q.1 u0) q.2 ∂P.prod P =
      ∫⁻ x, fkQ P mdl u g x ∂mdl.init P u0 := by
    intro g hg
    rw [FKModel.init, lintegral_map (measurable_fkQ hu hg) h0, lintegral_prod _ (hw g hg).aemeasurable]
    rfl
  have hp : IsProbabilityMeasure (mdl.init P u0) := Measure.isProbabilityMeasure_map h0.aemeasurable
  have hal : ∀ k, IsLogits (coreStep mdl I L u (rng.nth k (N + 1)) (coreInit mdl u0 (rng.nth k N))).2.1 ∧
      0 < (coreStep mdl I L u (rng.nth k (N + 1)) (coreInit mdl u0 (rng.nth k N))).2.2.lik := fun k =>
    coreStep_alive (I := I) (L := L) (x := fun i => mdl.initSample (rng.nth k N i) u0) (l := fun _ => 0) hd
      (rng.nth k (N + 1)) (hR.isLogits _ _ isLogits_zero)
  refine ⟨fun F h α mF mh => ?_, fun q h mh hq => ?_, fun C h mh hC => ?_, ?_, fun k => (hal k).1, fun k => (hal k).2,
    fun C h mh hC => ?_, fun C h mh hC => ?_⟩
  · simp only [fkQ_add_mul hu mh]
    rw [lintegral_add_right _ ((measurable_fkQ hu mh).const_mul _), lintegral_const_mul _ (measurable_fkQ hu mh)]
  · calc q = ∫⁻ _, q ∂mdl.init P u0 := by rw [lintegral_const, measure_univ, mul_one]
      _ ≤ _ := lintegral_mono hq
  · calc _ ≤ ∫⁻ _, C ∂mdl.init P u0 := lintegral_mono fun x => (lintegral_mono fun k => hC x k).trans_eq (by
          rw [lintegral_const, measure_univ, mul_one])
      _ = C := by rw [lintegral_const, measure_univ, mul_one]
  · exact (measurable_coreStep hR hu).comp ((measurable_nthAll h (N + 1)).prodMk
      ((measurable_coreInit h0).comp (measurable_nthAll h N)))
  · simp only [est_first hR.isLogits hu.isLog]
    have := hF.second _ (hw h mh) C fun q => hC _ _
    rwa [h6 h mh] at this
  · simp only [est_first hR.isLogits hu.isLog]
    have := hF.mean _ (hw h mh) C fun q => hC _ _
    rwa [h6 h mh] at this

/-- The conditional expectation of `f` at time `t` given the present state of the filter. -/
def predict (P : Measure K) (mdl : FKModel K X Inp) (f : X → ℝ≥0∞) (us : List Inp) (t : ℕ) (c : Core X N) : ℝ :=
  (avgE (fkG P mdl f us t) c).toReal / (avgE (fkG P mdl (fun _ => 1) us t) c).toReal

theorem measurable_predict {f : X → ℝ≥0∞} (hf : Measurable f) {us : List Inp} (t : ℕ)
    (hu : ∀ u' ∈ us, mdl.Regular u') : Measurable (predict P mdl f us t : Core X N → ℝ) :=
  (measurable_avgE (measurable_fkG hf us t hu)).ennreal_toReal.div
    (measurable_avgE (measurable_fkG measurable_const us t hu)).ennreal_toReal

/-- The error of the remaining steps. -/
def ErrorFrom (rng : Rng K) (P : Measure K) (mdl : FKModel K X Inp) (I : K → (Fin N → Fl) → Fin N → Fin N)
    (L : K → (Fin N → Fl) → Fin N → Fl) (f : X → ℝ≥0∞) (us : List Inp) (t : ℕ) (c : Core X N) (y : ℝ) (k : K) :
    ℝ≥0∞ :=
  ∫⁻ keys, ENNReal.ofReal |(avgE f (coreAt rng.toPrng mdl I L us t k c keys)).toReal - y|
    ∂(Measure.pi fun _ : Fin us.length => P)

/-- The error after a step is at most the error of the step and the error of the remaining steps. -/
theorem errorFrom_cons (h : IdealRng rng P) (hR : UnbiasedWeights P I L) {f : X → ℝ≥0∞} (hf : Measurable f)
    {us : List Inp} {t : ℕ} (hu : ∀ u' ∈ us, mdl.Regular u') (c : Core X N) (y : ℝ) (k : K) {E : ℝ≥0∞}
    (hE : ∫⁻ k', ErrorFrom rng P mdl I L f us t (coreStep mdl I L u (rng.nth k (N + 1)) c)
      (predict P mdl f us t (coreStep mdl I L u (rng.nth k (N + 1)) c)) k' ∂P ≤ E) :
    ErrorFrom rng P mdl I L f (u :: us) (t + 1) c y k ≤
      E + ENNReal.ofReal |predict P mdl f us t (coreStep mdl I L u (rng.nth k (N + 1)) c) - y| := by
  obtain ⟨c', hc'⟩ : ∃ c', c' = coreStep mdl I L u (rng.nth k (N + 1)) c := ⟨_, rfl⟩
  rw [← hc'] at hE ⊢
  have h2 : Measurable fun keys : Fin (us.length + 1) → K => Fin.tail keys :=
    measurable_pi_iff.mpr fun i => measurable_pi_apply i.succ
  have h3 : Measurable fun keys : Fin (us.length + 1) → K =>
      ENNReal.ofReal |(avgE f (coreAt rng.toPrng mdl I L us t (keys 0) c' (Fin.tail keys))).toReal - y| :=
    ENNReal.measurable_ofReal.comp (continuous_abs.measurable.comp (((measurable_avgE hf).comp
      ((measurable_coreAt h hR us t hu).comp ((measurable_pi_apply 0).prodMk
        (measurable_const.prodMk h2)))).ennreal_toReal.sub_const y))
  unfold ErrorFrom
  simp only [coreAt, ← hc']
  refine (lintegral_pi_cons P h3).trans_le ?_
  simp only [Fin.cons_zero, Fin.tail_cons]
  calc _ ≤ ∫⁻ k', ErrorFrom rng P mdl I L f us t c' (predict P mdl f us t c') k' +
          ENNReal.ofReal |predict P mdl f us t c' - y| ∂P := by
        refine lintegral_mono fun k' => ?_
        unfold ErrorFrom
        calc _ ≤ ∫⁻ keys, ENNReal.ofReal |(avgE f (coreAt rng.toPrng mdl I L us t k' c' keys)).toReal -
                predict P mdl f us t c'| + ENNReal.ofReal |predict P mdl f us t c' - y|
                ∂(Measure.pi fun _ : Fin us.length => P) := by
              refine lintegral_mono fun keys => ?_
              rw [← ENNReal.ofReal_add (abs_nonneg _) (abs_nonneg _)]
              exact ENNReal.ofReal_le_ofReal (abs_sub_le _ _ _)
          _ = _ := by rw [lintegral_add_right _ measurable_const, lintegral_const, measure_univ, mul_one]
    _ = (∫⁻ k', ErrorFrom rng P mdl I L f us t c' (predict P mdl f us t c') k' ∂P) +
          ENNReal.ofReal |predict P mdl f us t c' - y| := by
        rw [lintegral_add_right _ measurable_const, lintegral_const, measure_univ, mul_one]
    _ ≤ _ := by gcongr

/-- Several steps. -/
theorem errorFrom_le [Nonempty X] (h : IdealRng rng P) (hR : UnbiasedWeights P I L) (hK : Concentrates P I L κ)
    {v : ℝ} (hv : 0 ≤ v) (hκ : 2 * κ ≤ ENNReal.ofReal (v ^ 2)) (hr : 1 ≤ r) {f : X → ℝ≥0∞} (hf : Measurable f)
    {c : ℝ} (hc : 0 ≤ c) (hfc : ∀ x, f x ≤ ENNReal.ofReal c) :
    ∀ (us : List Inp) (t : ℕ) (cc : Core X N), t ≤ us.length → (∀ u ∈ us, mdl.Regular u) →
    (∀ u ∈ us, ForgetsQ P mdl u r b) → (∀ u ∈ us, ∀ x x', (mdl.logPotential x x' u).IsFin) → IsLogits cc.2.1 →
    ∫⁻ k, ErrorFrom rng P mdl I L f us t cc (predict P mdl f us t cc) k ∂P ≤
      ENNReal.ofReal (2 * v * b * r * c * ∑ s ∈ Finset.range t, rate r ^ s)
  | [], t, cc, ht, _, _, _, hcc => by
    obtain rfl : t = 0 := by simpa using ht
    simp [ErrorFrom, predict, fkG, coreAt, avgE_const hcc]
  | _ :: _, 0, cc, _, _, _, _, hcc => by simp [ErrorFrom, predict, fkG, coreAt, avgE_const hcc]
  | u :: us, t + 1, cc, ht, hu, hq, hd, hcc => by
    have hu' : ∀ u' ∈ us, mdl.Regular u' := fun u' h' => hu u' (by simp [h'])
    have hq' : ∀ u' ∈ us, ForgetsQ P mdl u' r b := fun u' h' => hq u' (by simp [h'])
    have hd' : ∀ u' ∈ us, ∀ x x', (mdl.logPotential x x' u').IsFin := fun u' h' => hd u' (by simp [h'])
    have hur := hu u (by simp)
    have ht' : t ≤ us.length := by simpa using ht
    have hs := stepLaw_core (c := cc) hR hK hur (hd u (by simp)) hcc
    have hκt : 2 * κ ≠ ⊤ := ne_top_of_le_ne_top ENNReal.ofReal_ne_top hκ
    have h1 := fun k => errorFrom_cons (u := u) h hR hf hu' cc (predict P mdl f (u :: us) (t + 1) cc) k
      (errorFrom_le h hR hK hv hκ hr hf hc hfc us t (coreStep mdl I L u (rng.nth k (N + 1)) cc) ht' hu' hq' hd'
        (hs.alive (rng.nth k (N + 1))))
    refine (lintegral_mono h1).trans ?_
    rw [lintegral_add_left measurable_const, lintegral_const, measure_univ, mul_one]
    have h2 : Measurable fun ks => ENNReal.ofReal |predict P mdl f us t (coreStep mdl I L u ks (cc.1, cc.2.1, 0)) -
        predict P mdl f (u :: us) (t + 1) cc| :=
      ENNReal.measurable_ofReal.comp (continuous_abs.measurable.comp
        (((measurable_predict hf t hu').comp hs.measurable).sub_const _))
    have h3 := (h.split (N + 1)).lintegral_comp h2
    have h4 := hs.error hκt hv (by simpa using hκ) hr hur (hq u (by simp)) ht' hu' hq' hf hc hfc
    calc _ ≤ ENNReal.ofReal (2 * v * b * r * c * ∑ s ∈ Finset.range t, rate r ^ s) +
            ENNReal.ofReal (2 * v * b * r * c * rate r ^ t) := add_le_add le_rfl (h3.trans_le h4)
      _ = _ := by
          have := rate_nonneg hr
          rw [← ENNReal.ofReal_add (by positivity) (by positivity), Finset.sum_range_succ]
          congr 1
          ring

/-- A run. -/
theorem error_run_le [NeZero N] (h : IdealRng rng P) (hR : UnbiasedWeights P I L) (hK : Concentrates P I L κ)
    (hF : FirstStep rng.toPrng P I L δ) (hδ : (N : ℝ≥0∞)⁻¹ ≤ δ) {v : ℝ} (hv : 0 ≤ v)
    (hκ : 2 * κ ≤ ENNReal.ofReal (v ^ 2)) (hδv : 3 * δ ≤ ENNReal.ofReal (v ^ 2)) (hr : 1 ≤ r) (hb : 1 ≤ b) {u0 : Inp}
    (h0 : Measurable fun k => mdl.initSample k u0) {f : X → ℝ≥0∞} (hf : Measurable f) {c : ℝ} (hc : 0 ≤ c)
    (hfc : ∀ x, f x ≤ ENNReal.ofReal c) (us : List Inp) (t : ℕ) (ht : t ≤ us.length) (hu : ∀ u ∈ us, mdl.Regular u)
    (hq : ∀ u ∈ us, ForgetsQ P mdl u r b) (hd : ∀ u ∈ us, ∀ x x', (mdl.logPotential x x' u).IsFin) :
    ∫⁻ k, ErrorFrom rng P mdl I L f us t (coreInit mdl u0 (rng.nth k N))
        ((∫⁻ x, fkG P mdl f us t x ∂mdl.init P u0).toReal /
          (∫⁻ x, fkG P mdl (fun _ => 1) us t x ∂mdl.init P u0).toReal) k ∂P ≤
      ENNReal.ofReal (2 * v * b * r ^ 3 * c) := by
  have hr' : (1 : ℝ) ≤ r := by exact_mod_cast hr
  have hb' : (1 : ℝ) ≤ b := by exact_mod_cast hb
  have hp : IsProbabilityMeasure (mdl.init P u0) := Measure.isProbabilityMeasure_map h0.aemeasurable
  have hzero : ∫⁻ k, ENNReal.ofReal |(avgE f (coreInit mdl u0 (rng.nth k N) : Core X N)).toReal -
      (∫⁻ x, f x ∂mdl.init P u0).toReal| ∂P ≤ ENNReal.ofReal (2 * v * b * r ^ 3 * c) := by
    have hest : ∀ a, est f (coreInit mdl u0 a : Core X N) = avgE f (coreInit mdl u0 a : Core X N) := fun a => by
      rw [est_eq_avgE]
      simp [coreInit, Fl.zero_def, Fl.lik]
    have hm : Measurable fun a => est f (coreInit mdl u0 a : Core X N) := (measurable_est hf).comp (measurable_coreInit h0)
    have hlt : ∫⁻ x, f x ∂mdl.init P u0 ≤ ENNReal.ofReal c :=
      (lintegral_mono hfc).trans_eq (by rw [lintegral_const, measure_univ, mul_one])
    have h1 := sq_error (μ := Measure.pi fun _ : Fin N => P) (C := ENNReal.ofReal c) (δ := 0) hm
      (fun a => by
        rw [hest]
        exact avgE_ne_top (fun x => ne_top_of_le_ne_top ENNReal.ofReal_ne_top (hfc x)) _)
      ENNReal.ofReal_ne_top (by simp [NeZero.ne N]) (lintegral_sq_coreInit h0 hf hfc)
      (by rw [lintegral_coreInit (N := N) h0 hf]; simp) hlt
    have h2 : ((N : ℝ≥0∞)⁻¹ + 2 * 0) * ENNReal.ofReal c ^ 2 ≤ ENNReal.ofReal ((v * c) ^ 2) := by
      rw [mul_zero, add_zero, mul_pow, ENNReal.ofReal_mul (by positivity), ENNReal.ofReal_pow hc]
      refine mul_le_mul_left (hδ.trans (le_trans ?_ hδv)) _
      exact le_mul_of_one_le_left' (by norm_num)
    have h3 := abs_error (by positivity) (h1.trans h2)
    simp only [hest] at h3
    have h4 : Measurable fun a => ENNReal.ofReal |(avgE f (coreInit mdl u0 a : Core X N)).toReal -
        (∫⁻ x, f x ∂mdl.init P u0).toReal| :=
      ENNReal.measurable_ofReal.comp (continuous_abs.measurable.comp
        (((measurable_avgE hf).comp (measurable_coreInit h0)).ennreal_toReal.sub_const _))
    refine (((h.split N).lintegral_comp h4).trans_le h3).trans (ENNReal.ofReal_le_ofReal ?_)
    have h5 : (1 : ℝ) ≤ b * r ^ 3 := by
      nlinarith [one_le_pow₀ hr' (n := 3)]
    nlinarith [mul_nonneg hv hc]
  match us, t, ht with
  | [], t, ht =>
    obtain rfl : t = 0 := by simpa using ht
    simpa [ErrorFrom, coreAt, fkG] using hzero
  | _ :: _, 0, _ => simpa [ErrorFrom, coreAt, fkG] using hzero
  | u :: us, t + 1, ht =>
    have hX : Nonempty X := by
      obtain ⟨k⟩ : Nonempty K := by
        by_contra hne
        have : IsEmpty K := not_nonempty_iff.mp hne
        have h1 := measure_univ (μ := P)
        rw [Set.univ_eq_empty_iff.mpr this, measure_empty] at h1
        exact zero_ne_one h1
      exact ⟨mdl.initSample k u0⟩
    have hu' : ∀ u' ∈ us, mdl.Regular u' := fun u' h' => hu u' (by simp [h'])
    have hq' : ∀ u' ∈ us, ForgetsQ P mdl u' r b := fun u' h' => hq u' (by simp [h'])
    have hd' : ∀ u' ∈ us, ∀ x x', (mdl.logPotential x x' u').IsFin := fun u' h' => hd u' (by simp [h'])
    have hur := hu u (by simp)
    have ht' : t ≤ us.length := by simpa using ht
    have hs := stepLaw_first h hR hF h0 hur (hd u (by simp))
    have hδt : δ ≠ ⊤ := by
      rintro rfl
      rw [ENNReal.mul_top (by norm_num)] at hδv
      exact ENNReal.ofReal_ne_top (top_le_iff.mp hδv)
    have h1 := fun k => errorFrom_cons (u := u) h hR hf hu' (coreInit mdl u0 (rng.nth k N))
      ((∫⁻ x, fkG P mdl f (u :: us) (t + 1) x ∂mdl.init P u0).toReal /
          (∫⁻ x, fkG P mdl (fun _ => 1) (u :: us) (t + 1) x ∂mdl.init P u0).toReal) k
      (errorFrom_le h hR hK hv hκ hr hf hc hfc us t
        (coreStep mdl I L u (rng.nth k (N + 1)) (coreInit mdl u0 (rng.nth k N))) ht' hu' hq' hd' (hs.alive k))
    refine (lintegral_mono h1).trans ?_
    rw [lintegral_add_left measurable_const, lintegral_const, measure_univ, mul_one]
    have h4 := hs.error hδt hv (le_trans (le_of_eq (by ring)) hδv) hr hur (hq u (by simp)) ht' hu' hq' hf hc hfc
    calc _ ≤ ENNReal.ofReal (2 * v * b * r * c * ∑ s ∈ Finset.range t, rate r ^ s) +
            ENNReal.ofReal (2 * v * b * r * c * rate r ^ t) := add_le_add le_rfl h4
      _ = ENNReal.ofReal (2 * v * b * r * c * ∑ s ∈ Finset.range (t + 1), rate r ^ s) := by
          have := rate_nonneg hr
          rw [← ENNReal.ofReal_add (by positivity) (by positivity), Finset.sum_range_succ]
          congr 1
          ring
      _ ≤ _ := by
          refine ENNReal.ofReal_le_ofReal ?_
          have h5 : ∑ s ∈ Finset.range (t + 1), rate r ^ s ≤ (r : ℝ) ^ 2 := by
            have h6 := mul_neg_geom_sum (rate r) (t + 1)
            have h7 : 1 - rate r = ((r : ℝ) ^ 2)⁻¹ := by
              unfold rate
              ring
            rw [h7, inv_mul_eq_div, div_eq_iff (by positivity)] at h6
            rw [h6]
            have h8 : 0 ≤ rate r ^ (t + 1) := pow_nonneg (rate_nonneg hr) _
            nlinarith [sq_nonneg (r : ℝ)]
          calc _ ≤ 2 * v * b * r * c * (r : ℝ) ^ 2 := by gcongr
            _ = _ := by ring

end filter

end

end Cuthbert.SMC
