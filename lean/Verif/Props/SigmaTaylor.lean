import Verif.Props.QuadratureLinearize
import Verif.Model.Linearize
import Mathlib.Analysis.Calculus.LineDeriv.Basic
import Mathlib.Topology.Instances.Matrix

/-!
# Properties: sigma points close to the mean (C119)

The full property is: as the uncertainty of the state shrinks, statistical linearisation with any quadrature rule tends
to the Taylor linearisation at the mean.
-/

namespace Cuthbert.Quadrature
open Matrix Filter
open scoped Topology

noncomputable section

variable {nx ny N : ℕ}

/-- A rule that shifts and scales fixed points with the first two moments of the standard normal law. -/
def Standard (rule : Rule nx N) (xi : Matrix (Fin N) (Fin nx) ℝ) (wm wc : Fin N → ℝ) : Prop :=
  IsStd xi wm wc ∧ ∀ m L, rule.getSigmaPoints m L = sigmaPointsOf m L xi wm wc

/-- The points with slopes `d`. -/
def slopePoints (wm wc : Fin N → ℝ) (d : Fin N → Fin ny → ℝ) : SigmaPoints N ny := ⟨Matrix.of d, wm, wc⟩

/-- The difference quotients of `f` in the directions of the points. -/
def slopes (f : (Fin nx → ℝ) → Fin ny → ℝ) (m : Fin nx → ℝ) (v : Fin N → Fin nx → ℝ) (e : ℝ) :
    Fin N → Fin ny → ℝ := fun k => e⁻¹ • (f (m + e • v k) - f m)

section scaled

variable {xi : Matrix (Fin N) (Fin nx) ℝ} {wm wc : Fin N → ℝ} (h : IsStd xi wm wc)
  (f : (Fin nx → ℝ) → Fin ny → ℝ) (m : Fin nx → ℝ) (L : Matrix (Fin nx) (Fin nx) ℝ) {e : ℝ} (he : e ≠ 0)
include h he

omit h he in
theorem scaled_row (k : Fin N) :
    (sigmaPointsOf m (e • L) xi wm wc).points k = m + e • (sigmaPointsOf 0 L xi wm wc).points k := by
  funext i
  simp only [sigmaPointsOf_points, Pi.add_apply, Pi.smul_apply, Matrix.smul_apply, smul_eq_mul, Pi.zero_apply, zero_add,
    Finset.mul_sum, mul_assoc]

theorem scaled_mean : (mapPoints (sigmaPointsOf m (e • L) xi wm wc) f).mean =
    f m + e • (slopePoints wm wc (slopes f m (sigmaPointsOf 0 L xi wm wc).points e)).mean := by
  funext j
  simp only [mean_apply, Pi.add_apply, Pi.smul_apply, smul_eq_mul, mapPoints, slopePoints, Matrix.of_apply, scaled_row,
    slopes, Pi.sub_apply, Finset.mul_sum]
  change ∑ k, wm k * _ = _
  have h1 : f m j = ∑ k, wm k * f m j := by rw [← Finset.sum_mul, h.sum, one_mul]
  rw [h1, ← Finset.sum_add_distrib]
  refine Finset.sum_congr rfl fun k _ => ?_
  rw [← h1]
  field_simp
  ring

theorem scaled_cross : (sigmaPointsOf m (e • L) xi wm wc).covariance (mapPoints (sigmaPointsOf m (e • L) xi wm wc) f) =
    e ^ 2 • (sigmaPointsOf 0 L xi wm wc).covariance
      (slopePoints wm wc (slopes f m (sigmaPointsOf 0 L xi wm wc).points e)) := by
  have h1 : (sigmaPointsOf m (e • L) xi wm wc).mean = m := (h.moments m (e • L) _ rfl).2.1
  have h2 : (sigmaPointsOf 0 L xi wm wc).mean = 0 := (h.moments 0 L _ rfl).2.1
  ext i j
  rw [SigmaPoints.covariance, SigmaPoints.covariance, Matrix.smul_apply, cov_apply, cov_apply, scaled_mean h f m L he, h1,
    h2, smul_eq_mul, Finset.mul_sum]
  refine Finset.sum_congr rfl fun k _ => ?_
  simp only [mapPoints, slopePoints, Matrix.of_apply, slopes, Pi.add_apply, Pi.smul_apply, Pi.sub_apply, smul_eq_mul,
    Pi.zero_apply]
  rw [scaled_row]
  simp only [Pi.add_apply, Pi.smul_apply, smul_eq_mul]
  change wc k * _ = e ^ 2 * (wc k * _)
  field_simp
  ring

theorem scaled_cov : (mapPoints (sigmaPointsOf m (e • L) xi wm wc) f).covariance
      (mapPoints (sigmaPointsOf m (e • L) xi wm wc) f) =
    e ^ 2 • (slopePoints wm wc (slopes f m (sigmaPointsOf 0 L xi wm wc).points e)).covariance
      (slopePoints wm wc (slopes f m (sigmaPointsOf 0 L xi wm wc).points e)) := by
  ext i j
  rw [SigmaPoints.covariance, SigmaPoints.covariance, Matrix.smul_apply, cov_apply, cov_apply, scaled_mean h f m L he,
    smul_eq_mul, Finset.mul_sum]
  refine Finset.sum_congr rfl fun k _ => ?_
  simp only [mapPoints, slopePoints, Matrix.of_apply, slopes, Pi.add_apply, Pi.smul_apply, Pi.sub_apply, smul_eq_mul]
  rw [scaled_row]
  change wc k * _ = e ^ 2 * (wc k * _)
  field_simp
  ring

end scaled

theorem continuous_slopeMean (wm wc : Fin N → ℝ) :
    Continuous fun d : Fin N → Fin ny → ℝ => (slopePoints wm wc d).mean := by
  refine continuous_pi fun j => ?_
  simp only [mean_apply, slopePoints, Matrix.of_apply]
  fun_prop

theorem continuous_slopeCross (x : SigmaPoints N nx) (wm wc : Fin N → ℝ) :
    Continuous fun d : Fin N → Fin ny → ℝ => x.covariance (slopePoints wm wc d) := by
  refine continuous_matrix fun i j => ?_
  simp only [SigmaPoints.covariance, cov_apply]
  have h1 := continuous_slopeMean (ny := ny) wm wc
  refine continuous_finsetSum _ fun k _ => ?_
  refine continuous_const.mul (continuous_const.mul (Continuous.sub ?_ ((continuous_apply j).comp h1)))
  simp only [slopePoints, Matrix.of_apply]
  fun_prop

theorem continuous_slopeCov (wm wc : Fin N → ℝ) :
    Continuous fun d : Fin N → Fin ny → ℝ => (slopePoints wm wc d).covariance (slopePoints wm wc d) := by
  refine continuous_matrix fun i j => ?_
  simp only [SigmaPoints.covariance, cov_apply]
  have h1 := continuous_slopeMean (ny := ny) wm wc
  refine continuous_finsetSum _ fun k _ => ?_
  refine Continuous.mul (f := fun _ => wc k) continuous_const ?_
  refine Continuous.mul (Continuous.sub ?_ ((continuous_apply i).comp h1))
    (Continuous.sub ?_ ((continuous_apply j).comp h1))
  · simp only [slopePoints, Matrix.of_apply]
    fun_prop
  · simp only [slopePoints, Matrix.of_apply]
    fun_prop

theorem tendsto_slopes {f : (Fin nx → ℝ) → Fin ny → ℝ} {m : Fin nx → ℝ} (hf : DifferentiableAt ℝ f m)
    (v : Fin N → Fin nx → ℝ) :
    Tendsto (slopes f m v) (𝓝[>] 0) (𝓝 fun k => Linearize.jacfwd f m *ᵥ v k) := by
  refine tendsto_pi_nhds.mpr fun k => ?_
  have h1 : Linearize.jacfwd f m *ᵥ v k = fderiv ℝ f m (v k) := by
    simp only [Linearize.jacfwd]
    rw [← Matrix.toLin'_apply, Matrix.toLin'_toMatrix']
    rfl
  rw [h1]
  have h2 := (hf.hasFDerivAt.hasLineDerivAt (v k)).tendsto_slope_zero_right
  exact h2

/-! ## C119 -/

/-- C119, what is returned with every rule that shifts and scales standard points: gain and offset tend to
those of the Taylor linearisation as the covariance `e ^ 2 P` tends to zero. The covariance tends to the conditional covariance times
the sum of the covariance weights, and what the regression adds for nonlinearity vanishes faster than the covariance. -/
theorem slr_small (qr : QR) (ch : Cholesky) (f : Linearize.MomentsFn nx ny) {m : Fin nx → ℝ}
    (hf : DifferentiableAt ℝ (fun z => (f z).1) m) (hS : ContinuousAt (fun z => (f z).2) m)
    {P : Matrix (Fin nx) (Fin nx) ℝ} (hP : P.PosDef) {rule : Rule nx N} {xi : Matrix (Fin N) (Fin nx) ℝ}
    {wm wc : Fin N → ℝ} (hr : Standard rule xi wm wc) {H : Matrix (Fin ny) (Fin nx) ℝ} {d : Fin ny → ℝ}
    {C : Matrix (Fin ny) (Fin ny) ℝ} (hT : Linearize.linearizeMoments f m = (H, d, C)) :
    ∃ A b Q, (∀ e : ℝ, 0 < e → conditionalMoments qr ch (fun z => (f z).1) (fun z => (f z).2 * (f z).2ᵀ) m (e ^ 2 • P)
        rule "covariance" = some (A e, b e, Q e)) ∧
      Tendsto A (𝓝[>] 0) (𝓝 H) ∧ Tendsto b (𝓝[>] 0) (𝓝 d) ∧
      Tendsto Q (𝓝[>] 0) (𝓝 ((∑ k, wc k) • (C * Cᵀ))) ∧
      ((∀ z, (f z).2 = C) → Tendsto (fun e => (e ^ 2)⁻¹ • (Q e - (∑ k, wc k) • (C * Cᵀ))) (𝓝[>] 0) (𝓝 0)) := by
  obtain ⟨L, -, hL, hd, rfl⟩ := ch.posDef P hP
  obtain ⟨h, hrule⟩ := hr
  obtain ⟨g, hg⟩ : ∃ g : (Fin nx → ℝ) → Fin ny → ℝ, g = fun z => (f z).1 := ⟨_, rfl⟩
  have hH : Linearize.jacfwd g m = H := by rw [hg]; exact congrArg Prod.fst hT
  have hdm : d = g m - H *ᵥ m := by
    rw [← hH, hg]
    exact (congrArg (fun q => q.2.1) hT).symm
  have hC : C = (f m).2 := (congrArg (fun q => q.2.2) hT).symm
  rw [← hg] at hf
  obtain ⟨x0, hx0⟩ : ∃ x0, x0 = sigmaPointsOf 0 L xi wm wc := ⟨_, rfl⟩
  obtain ⟨s, hs⟩ : ∃ s : ℝ → Fin N → Fin ny → ℝ, s = slopes g m x0.points := ⟨_, rfl⟩
  have hst : Tendsto s (𝓝[>] 0) (𝓝 fun k => H *ᵥ x0.points k) := by
    rw [hs, ← hH]
    exact tendsto_slopes hf _
  obtain ⟨hm1, hm2, hm3⟩ := h.moments 0 L x0 hx0
  have hy : slopePoints wm wc (fun k => H *ᵥ x0.points k) = mapPoints x0 fun z => H *ᵥ z + 0 := by
    rw [slopePoints, mapPoints, hx0]
    simp only [add_zero]
    rfl
  obtain ⟨hl1, hl2, hl3⟩ := affine_moments hm1 hm2 hm3 H 0 _ hy
  have hdet : IsUnit (L * Lᵀ).det := gram_isUnit_det hL fun i => (hd i).ne'
  -- the limits
  have t1 : Tendsto (fun e => (slopePoints wm wc (s e)).mean) (𝓝[>] 0) (𝓝 0) := by
    have := ((continuous_slopeMean (ny := ny) wm wc).tendsto _).comp hst
    rw [hl1, mulVec_zero, add_zero] at this
    exact this
  obtain ⟨A, hA⟩ : ∃ A : ℝ → Matrix (Fin ny) (Fin nx) ℝ,
    A = fun e => ((L * Lᵀ)⁻¹ * x0.covariance (slopePoints wm wc (s e)))ᵀ := ⟨_, rfl⟩
  have t2 : Tendsto A (𝓝[>] 0) (𝓝 H) := by
    have h1 : Continuous fun q : Fin N → Fin ny → ℝ => ((L * Lᵀ)⁻¹ * x0.covariance (slopePoints wm wc q))ᵀ :=
      (continuous_const.matrix_mul (continuous_slopeCross x0 wm wc)).matrix_transpose
    have := (h1.tendsto _).comp hst
    rw [hl2, ← Matrix.mul_assoc, Matrix.nonsing_inv_mul _ hdet, Matrix.one_mul, Matrix.transpose_transpose] at this
    rw [hA]
    exact this
  obtain ⟨D, hD⟩ : ∃ D : ℝ → Matrix (Fin ny) (Fin ny) ℝ,
    D = fun e => (slopePoints wm wc (s e)).covariance (slopePoints wm wc (s e)) - A e * (L * Lᵀ) * (A e)ᵀ := ⟨_, rfl⟩
  have t3 : Tendsto D (𝓝[>] 0) (𝓝 0) := by
    have h1 := ((continuous_slopeCov (ny := ny) wm wc).tendsto _).comp hst
    rw [hl3] at h1
    have h2 : Continuous fun M : Matrix (Fin ny) (Fin nx) ℝ => M * (L * Lᵀ) * Mᵀ :=
      (continuous_id.matrix_mul continuous_const).matrix_mul continuous_id.matrix_transpose
    have h3 := h1.sub ((h2.tendsto _).comp t2)
    rw [sub_self] at h3
    rw [hD]
    exact h3
  obtain ⟨V, hV⟩ : ∃ V : ℝ → Matrix (Fin ny) (Fin ny) ℝ,
    V = fun e => ∑ k, wc k • ((f (m + e • x0.points k)).2 * (f (m + e • x0.points k)).2ᵀ) := ⟨_, rfl⟩
  have t4 : Tendsto V (𝓝[>] 0) (𝓝 ((∑ k, wc k) • (C * Cᵀ))) := by
    rw [hV, Finset.sum_smul]
    refine tendsto_finsetSum _ fun k _ => ?_
    have h1 : Tendsto (fun e : ℝ => m + e • x0.points k) (𝓝[>] 0) (𝓝 m) := by
      have h2 : Continuous fun e : ℝ => m + e • x0.points k := by fun_prop
      have h3 := (h2.tendsto 0).mono_left (nhdsWithin_le_nhds (s := Set.Ioi 0))
      simpa using h3
    have h2 : Tendsto (fun e : ℝ => (f (m + e • x0.points k)).2) (𝓝[>] 0) (𝓝 C) := by
      rw [hC]
      exact hS.tendsto.comp h1
    have h3 : Continuous fun M : Matrix (Fin ny) (Fin ny) ℝ => wc k • (M * Mᵀ) :=
      Continuous.const_smul (g := fun M : Matrix (Fin ny) (Fin ny) ℝ => M * Mᵀ)
        (continuous_id.matrix_mul continuous_id.matrix_transpose) (wc k)
    exact (h3.tendsto _).comp h2
  have hVs : ∀ e, (V e)ᵀ = V e := fun e => by
    rw [hV]
    simp only [Matrix.transpose_sum, Matrix.transpose_smul, gram_symm]
  have te : Tendsto (fun e : ℝ => e ^ 2) (𝓝[>] 0) (𝓝 0) := by
    have h1 : Continuous fun e : ℝ => e ^ 2 := by fun_prop
    have h3 := (h1.tendsto 0).mono_left (nhdsWithin_le_nhds (s := Set.Ioi 0))
    simpa using h3
  have tD : Tendsto (fun e => (1 / 2 : ℝ) • (D e + (D e)ᵀ)) (𝓝[>] 0) (𝓝 0) := by
    have h1 : Continuous fun M : Matrix (Fin ny) (Fin ny) ℝ => (1 / 2 : ℝ) • (M + Mᵀ) :=
      Continuous.const_smul (g := fun M : Matrix (Fin ny) (Fin ny) ℝ => M + Mᵀ)
        (continuous_id.add continuous_id.matrix_transpose) (1 / 2 : ℝ)
    have := (h1.tendsto _).comp t3
    rw [Matrix.transpose_zero, add_zero, smul_zero] at this
    exact this
  refine ⟨A, fun e => g m + e • (slopePoints wm wc (s e)).mean - A e *ᵥ m,
    fun e => V e + e ^ 2 • ((1 / 2 : ℝ) • (D e + (D e)ᵀ)), fun e he => ?_, t2, ?_, ?_, fun hconst => ?_⟩
  · have hle : (e • L) * (e • L)ᵀ = e ^ 2 • (L * Lᵀ) := by
      rw [Matrix.transpose_smul, Matrix.smul_mul, Matrix.mul_smul, smul_smul, sq]
    have hx := hrule m (e • L)
    have k1 := scaled_mean h g m L he.ne'
    have k2 := scaled_cross h g m L he.ne'
    have k3 := scaled_cov h g m L he.ne'
    rw [← hx0, ← hs] at k1 k2 k3
    have hAe : A e = slrA (sigmaPointsOf m (e • L) xi wm wc) g ((e • L) * (e • L)ᵀ) := by
      have hi : (e ^ 2 • (L * Lᵀ))⁻¹ = (e ^ 2)⁻¹ • (L * Lᵀ)⁻¹ := by
        refine Matrix.inv_eq_right_inv ?_
        rw [Matrix.smul_mul, Matrix.mul_smul, smul_smul, mul_inv_cancel₀ (by positivity), one_smul,
          Matrix.mul_nonsing_inv _ hdet]
      rw [slrA, hle, k2, hi, Matrix.smul_mul, Matrix.mul_smul, smul_smul, inv_mul_cancel₀ (by positivity), one_smul, hA]
    have hc := covMode_eq qr ch g (fun z => (f z).2 * (f z).2ᵀ) m (L := e • L)
      (fun i j hij => by rw [Matrix.smul_apply, hL i j hij, smul_zero])
      (fun i => by rw [Matrix.smul_apply, smul_eq_mul]; exact mul_pos he (hd i)) rule _ hx.symm (A e) hAe _ rfl
    rw [hle] at hc
    rw [← hg, hc, k1, k3]
    have hVe : ∑ k, (sigmaPointsOf m (e • L) xi wm wc).wc k •
        ((f ((sigmaPointsOf m (e • L) xi wm wc).points k)).2 *
          (f ((sigmaPointsOf m (e • L) xi wm wc).points k)).2ᵀ) = V e := by
      rw [hV]
      refine Finset.sum_congr rfl fun k _ => ?_
      rw [scaled_row, ← hx0]
      rfl
    congr 3
    beta_reduce at hVe ⊢
    rw [hVe]
    obtain ⟨Y, hY⟩ : ∃ Y, Y = (slopePoints wm wc (s e)).covariance (slopePoints wm wc (s e)) := ⟨_, rfl⟩
    have hDe : D e = Y - A e * (L * Lᵀ) * (A e)ᵀ := by rw [hD, hY]
    rw [← hY, Matrix.mul_smul, Matrix.smul_mul,
      show e ^ 2 • Y + V e - e ^ 2 • (A e * (L * Lᵀ) * (A e)ᵀ) = V e + e ^ 2 • D e by rw [hDe]; module,
      Matrix.transpose_add, hVs, Matrix.transpose_smul]
    module
  · have h1 : Tendsto (fun e : ℝ => e • (slopePoints wm wc (s e)).mean) (𝓝[>] 0) (𝓝 ((0 : ℝ) • (0 : Fin ny → ℝ))) :=
      (tendsto_id.mono_left (nhdsWithin_le_nhds (s := Set.Ioi (0 : ℝ)))).smul t1
    have h2 : Continuous fun M : Matrix (Fin ny) (Fin nx) ℝ => M *ᵥ m := continuous_id.matrix_mulVec continuous_const
    have h3 := (h1.const_add (g m)).sub ((h2.tendsto _).comp t2)
    rw [smul_zero, add_zero, ← hdm] at h3
    exact h3
  · have := t4.add (te.smul tD)
    rw [smul_zero, add_zero] at this
    exact this
  · refine tD.congr' ?_
    filter_upwards [self_mem_nhdsWithin] with e he
    have he0 : (e : ℝ) ^ 2 ≠ 0 := pow_ne_zero 2 (ne_of_gt he)
    have hVe : V e = (∑ k, wc k) • (C * Cᵀ) := by
      rw [hV]
      simp only [hconst, Finset.sum_smul]
    rw [hVe, add_sub_cancel_left, smul_smul, inv_mul_cancel₀ he0, one_smul]

/-- What C119 demands of a rule: as the covariance shrinks, gain, offset and covariance tend to those of the Taylor
linearisation at the mean, for every model and state. -/
def TendsToTaylor (qr : QR) (ch : Cholesky) (rule : Rule nx N) (ny : ℕ) : Prop :=
  ∀ (f : Linearize.MomentsFn nx ny) (m : Fin nx → ℝ), DifferentiableAt ℝ (fun z => (f z).1) m →
    ContinuousAt (fun z => (f z).2) m → ∀ P : Matrix (Fin nx) (Fin nx) ℝ, P.PosDef →
    ∃ A b Q, (∀ e : ℝ, 0 < e → conditionalMoments qr ch (fun z => (f z).1) (fun z => (f z).2 * (f z).2ᵀ) m (e ^ 2 • P)
        rule "covariance" = some (A e, b e, Q e)) ∧
      Tendsto A (𝓝[>] 0) (𝓝 (Linearize.linearizeMoments f m).1) ∧
      Tendsto b (𝓝[>] 0) (𝓝 (Linearize.linearizeMoments f m).2.1) ∧
      Tendsto Q (𝓝[>] 0) (𝓝 ((Linearize.linearizeMoments f m).2.2 * (Linearize.linearizeMoments f m).2.2ᵀ))

theorem tendsToTaylor_of_wc (qr : QR) (ch : Cholesky) {rule : Rule nx N} {xi : Matrix (Fin N) (Fin nx) ℝ}
    {wm wc : Fin N → ℝ} (hr : Standard rule xi wm wc) (hw : ∑ k, wc k = 1) (ny : ℕ) : TendsToTaylor qr ch rule ny := by
  intro f m hf hS P hP
  obtain ⟨A, b, Q, h1, h2, h3, h4, -⟩ := slr_small qr ch f hf hS hP hr (H := (Linearize.linearizeMoments f m).1)
    (d := (Linearize.linearizeMoments f m).2.1) (C := (Linearize.linearizeMoments f m).2.2) rfl
  rw [hw, one_smul] at h4
  exact ⟨A, b, Q, h1, h2, h3, h4⟩

theorem cubature_standard (hn : 0 < nx) : Standard (cubature nx) (crossPoints nx (Real.sqrt nx)) (fun _ => 1 / (2 * nx))
    fun _ => 1 / (2 * nx) := ⟨cubature_isStd hn, cubature_eq nx⟩

theorem gaussHermite_standard {order : ℕ} (h : Hermegauss order) (ho : 2 ≤ order) :
    Standard (gaussHermite h nx) (Matrix.of (productRow h.x nx))
      (fun k => (∏ i, productRow h.w nx k i) / Real.sqrt (2 * Real.pi) ^ nx)
      fun k => (∏ i, productRow h.w nx k i) / Real.sqrt (2 * Real.pi) ^ nx :=
  ⟨(gaussHermite_exact h (by omega)).isStd (by omega), fun _ _ => rfl⟩

/-- C119 for the cubature rule. -/
theorem cubature_tendsto_taylor_partial (hn : 0 < nx) (qr : QR) (ch : Cholesky) (ny : ℕ) :
    TendsToTaylor qr ch (cubature nx) ny :=
  tendsToTaylor_of_wc qr ch (cubature_standard hn) (cubature_isStd hn).sum ny

/-- C119 for the Gauss-Hermite rule of order at least two. -/
theorem gaussHermite_tendsto_taylor_partial {order : ℕ} (h : Hermegauss order) (ho : 2 ≤ order) (qr : QR) (ch : Cholesky)
    (ny : ℕ) : TendsToTaylor qr ch (gaussHermite h nx) ny :=
  tendsToTaylor_of_wc qr ch (gaussHermite_standard h ho) (gaussHermite_standard h ho).1.sum ny

/-- C119 for the unscented rule: true exactly if its covariance weights sum to one. Missing: other parameters, among
them the default ones, see `unscented_default_not_taylor`. -/
theorem unscented_tendsto_taylor_partial {alpha beta : ℝ} {kappa : Option ℝ} {r : Rule nx (1 + (nx + nx))}
    (hr : unscented nx alpha beta kappa = some r) (qr : QR) (ch : Cholesky) (ny : ℕ) [NeZero ny] :
    TendsToTaylor qr ch r ny ↔ beta = alpha ^ 2 - 1 := by
  obtain ⟨lam, hlam, h, -⟩ := unscented_eq hr 0 0
  have hs : Standard r (unscentedXi nx (Real.sqrt (nx + lam)))
      (Fin.append (fun _ => lam / (nx + lam)) fun _ => 1 / (2 * (nx + lam)))
      (Fin.append (fun _ => lam / (nx + lam) + (1 - alpha ^ 2 + beta)) fun _ => 1 / (2 * (nx + lam))) := by
    refine ⟨unscented_isStd h _, fun m L => ?_⟩
    obtain ⟨lam', hlam', -, h2⟩ := unscented_eq hr m L
    rw [hlam, ← hlam']
    exact h2
  have hw := unscented_wc_sum hr 0 0
  rw [hs.2] at hw
  constructor
  · intro hT
    obtain ⟨f, hf⟩ : ∃ f : Linearize.MomentsFn nx ny, f = fun _ => (0, 1) := ⟨_, rfl⟩
    have hd : DifferentiableAt ℝ (fun z => (f z).1) 0 := by
      rw [hf]
      exact differentiableAt_const _
    have hS : ContinuousAt (fun z => (f z).2) 0 := by
      rw [hf]
      exact continuousAt_const
    have hl : (Linearize.linearizeMoments f 0).2.2 = 1 := by rw [hf]; rfl
    obtain ⟨A, b, Q, h1, -, -, h4⟩ := hT f 0 hd hS 1 Matrix.PosDef.one
    obtain ⟨A', b', Q', h1', -, -, h4', -⟩ := slr_small qr ch f hd hS Matrix.PosDef.one hs
      (H := (Linearize.linearizeMoments f 0).1) (d := (Linearize.linearizeMoments f 0).2.1)
      (C := (Linearize.linearizeMoments f 0).2.2) rfl
    have hQ : Q =ᶠ[𝓝[>] 0] Q' := by
      filter_upwards [self_mem_nhdsWithin] with e he
      have h2 := (h1 e he).symm.trans (h1' e he)
      simp only [Option.some.injEq, Prod.mk.injEq] at h2
      exact h2.2.2
    have h5 := tendsto_nhds_unique (h4.congr' hQ) h4'
    have h6 := congrFun (congrFun h5 0) 0
    rw [Matrix.smul_apply, show (∑ k, Fin.append (fun _ : Fin 1 => lam / (nx + lam) + (1 - alpha ^ 2 + beta))
      (fun _ : Fin (nx + nx) => 1 / (2 * (nx + lam))) k) = 2 - alpha ^ 2 + beta from hw, smul_eq_mul, hl, Matrix.transpose_one, Matrix.mul_one, Matrix.one_apply_eq, mul_one] at h6
    linarith
  · intro hb
    refine tendsToTaylor_of_wc qr ch hs ?_ ny
    refine hw.trans ?_
    rw [hb]
    ring

/-- C119 is false of the unscented rule with the default parameters. -/
theorem unscented_default_not_taylor (qr : QR) (ch : Cholesky) (ny : ℕ) [NeZero ny] :
    ∃ r, unscented nx (1 / 2) 2 none = some r ∧ ¬TendsToTaylor qr ch r ny := by
  obtain ⟨r, hr⟩ := (unscented_isSome_iff nx (1 / 2) 2 none).mpr (by
    simp only [Option.getD_none]
    positivity)
  refine ⟨r, hr, fun h => ?_⟩
  have := (unscented_tendsto_taylor_partial hr qr ch ny).mp h
  norm_num at this

/-- C119 in square-root mode, for invertible conditional factors: the factor that is returned tends to a square root of
the conditional covariance. -/
theorem slr_small_sqrt (qr : QR) (ch : Cholesky) (f : Linearize.MomentsFn nx ny) {m : Fin nx → ℝ}
    (hf : DifferentiableAt ℝ (fun z => (f z).1) m) (hS : ContinuousAt (fun z => (f z).2) m)
    (hdet : ∀ z, ((f z).2).det ≠ 0) {L : Matrix (Fin nx) (Fin nx) ℝ} (hL : ∀ i j, i < j → L i j = 0)
    (hd : ∀ i, 0 < L i i) {rule : Rule nx N} {xi : Matrix (Fin N) (Fin nx) ℝ}
    {wm wc : Fin N → ℝ} (hr : Standard rule xi wm wc) (hw0 : ∀ k, 0 ≤ wc k) (hw : ∑ k, wc k = 1) {mode : String}
    (hm : mode ≠ "covariance") :
    ∃ (A : ℝ → Matrix (Fin ny) (Fin nx) ℝ) (b : ℝ → Fin ny → ℝ) (C : ℝ → Matrix (Fin ny) (Fin ny) ℝ),
      (∀ e : ℝ, 0 < e → conditionalMoments qr ch (fun z => (f z).1) (fun z => (f z).2) m (e • L) rule mode =
        some (A e, b e, C e) ∧ ∀ i j, i < j → C e i j = 0) ∧
      Tendsto A (𝓝[>] 0) (𝓝 (Linearize.linearizeMoments f m).1) ∧
      Tendsto b (𝓝[>] 0) (𝓝 (Linearize.linearizeMoments f m).2.1) ∧
      Tendsto (fun e => C e * (C e)ᵀ) (𝓝[>] 0)
        (𝓝 ((Linearize.linearizeMoments f m).2.2 * (Linearize.linearizeMoments f m).2.2ᵀ)) := by
  have hP : (L * Lᵀ).PosDef := (gram_posSemidef L).posDef_iff_isUnit.mpr
    ((Matrix.isUnit_iff_isUnit_det _).mpr (gram_isUnit_det hL fun i => (hd i).ne'))
  obtain ⟨A, b, Q, h1, h2, h3, h4⟩ := tendsToTaylor_of_wc qr ch hr hw ny f m hf hS _ hP
  have hmm : MatchesMoments rule := fun m L => hr.1.moments m L _ (hr.2 m L)
  have hpos : ∃ k, 0 < wc k := by
    by_contra hne
    push Not at hne
    have : ∑ k, wc k ≤ 0 := Finset.sum_nonpos fun k _ => hne k
    linarith
  have key : ∀ e : ℝ, 0 < e → ∃ C : Matrix (Fin ny) (Fin ny) ℝ,
      conditionalMoments qr ch (fun z => (f z).1) (fun z => (f z).2) m (e • L) rule mode = some (A e, b e, C) ∧
      (∀ i j, i < j → C i j = 0) ∧ C * Cᵀ = Q e := by
    intro e he
    obtain ⟨A', b', Q', C, k1, k2, k3, k4⟩ := modes_agree_of_noise qr ch (fun z => (f z).1) (fun z => (f z).2) hdet m
      (e • L) (fun i j hij => by rw [Matrix.smul_apply, hL i j hij, smul_zero])
      (fun i => by rw [Matrix.smul_apply, smul_eq_mul]; exact mul_pos he (hd i)) rule hmm
      (by rw [hr.2]; exact hw0) (by rw [hr.2]; exact hpos) mode hm
    rw [Matrix.transpose_smul, Matrix.smul_mul, Matrix.mul_smul, smul_smul, ← sq, h1 e he] at k1
    simp only [Option.some.injEq, Prod.mk.injEq] at k1
    obtain ⟨rfl, rfl, rfl⟩ := k1
    exact ⟨C, k2, k3, k4⟩
  choose! C hC using key
  refine ⟨A, b, C, fun e he => ⟨(hC e he).1, (hC e he).2.1⟩, h2, h3, h4.congr' ?_⟩
  filter_upwards [self_mem_nhdsWithin] with e he
  exact (hC e he).2.2.symm

/-- The hypotheses of C119 are met by a nonlinear model with noise that depends on the state. -/
example : ∃ f : Linearize.MomentsFn 1 1, DifferentiableAt ℝ (fun z => (f z).1) 0 ∧ ContinuousAt (fun z => (f z).2) 0 ∧
    (∀ z, ((f z).2).det ≠ 0) ∧ (f 1).1 ≠ (f 0).1 + (f 0).1 := by
  refine ⟨fun z => (fun _ => Real.exp (z 0), fun _ _ => Real.exp (z 0)), ?_, ?_, fun z => ?_, fun h => ?_⟩
  · refine differentiableAt_pi.mpr fun _ => ?_
    fun_prop
  · refine Continuous.continuousAt ?_
    refine continuous_matrix fun _ _ => ?_
    fun_prop
  · rw [Matrix.det_fin_one]
    exact (Real.exp_pos _).ne'
  · have h1 := congrFun h 0
    simp only [Pi.one_apply, Pi.zero_apply, Pi.add_apply, Real.exp_zero] at h1
    have h2 := Real.add_one_lt_exp (one_ne_zero (α := ℝ))
    linarith

end

end Cuthbert.Quadrature
