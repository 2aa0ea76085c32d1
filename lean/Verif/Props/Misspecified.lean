import Verif.Spec.Misspecified
import Verif.Lemmas.Inflate
import Verif.Props.BestLinear
import Verif.Props.Uncertainty

/-!
# C142: a model that overstates the noise does not understate the errors

Filter and smoother are run on data of a process with other noise covariances than they are told. If they are told at
least the noise there is, then their means are unbiased and their covariances are at least the covariances of their
errors. If they are told at most the noise there is, their covariances are at most the covariances of their errors.
-/

namespace Cuthbert.Kalman
open MeasureTheory Matrix Cuthbert.Spec Cuthbert.Generate Cuthbert.SecondOrder

noncomputable section

set_option linter.unusedSectionVars false

variable {Ω : Type*} [MeasurableSpace Ω] {nx ny : ℕ}

/-! ### Recursions on any data -/

theorem covAt_isGram {T : ℕ} (cholP0 : Matrix (Fin nx) (Fin nx) ℝ) {θ : ℕ → Par nx ny} (seen : ℕ → Fin ny → Bool)
    (hR : ∀ t < T, (θ t).cholR.det ≠ 0) {t : ℕ} (ht : t ≤ T) : IsGram (covAt cholP0 θ seen t) := by
  have u₀ : Step nx ny := ⟨0, 0, 0, 0, 0, 0, fun _ => none⟩
  have h : ∀ t ≤ T, (kfAt (dataCallbacks 0 cholP0) u₀ (seenSteps θ seen T fun _ _ => 0) t).P = covAt cholP0 θ seen t := by
    intro t
    induction t with
    | zero => intro _; rfl
    | succ t ih =>
      intro ht
      rw [kfAt_succ _ _ _ _ _ (seenSteps_get θ seen _ (show t < T by omega))]
      have he : stepOf (dataCallbacks 0 cholP0) (seenStep θ seen t fun _ => 0) = seenStep θ seen t fun _ => 0 := rfl
      rw [he, (kfStep_seen _ θ seen t _).2, ih (by omega)]
      rfl
  rw [← h t ht]
  exact kfAt_gram _ _ _ (seenSteps_R hR seen 0 cholP0 _) t

theorem innov_ne_zero {T : ℕ} (cholP0 : Matrix (Fin nx) (Fin nx) ℝ) {θ : ℕ → Par nx ny} (seen : ℕ → Fin ny → Bool)
    (hR : ∀ t < T, (θ t).cholR.det ≠ 0) {t : ℕ} (ht : t < T) :
    (innovCov ((θ t).F * covAt cholP0 θ seen t * (θ t).Fᵀ + (θ t).cholQ * (θ t).cholQᵀ)
      (seenRows seen t (θ t).H) (seenRows seen t (θ t).cholR * (seenRows seen t (θ t).cholR)ᵀ)).det ≠ 0 := by
  have hRd : (seenRows seen t (θ t).cholR * (seenRows seen t (θ t).cholR)ᵀ).det ≠ 0 := by
    have h := seenSteps_R hR seen 0 cholP0 (fun _ _ => 0) _ (List.mem_of_getElem? (seenSteps_get θ seen (fun _ _ => 0) ht))
    have e : (seenRows seen t (θ t).cholR * (seenRows seen t (θ t).cholR)ᵀ) =
      ((stepOf (dataCallbacks 0 cholP0) (seenStep θ seen t fun _ => 0)).R).submatrix (seenEquiv seen t fun _ => 0)
        (seenEquiv seen t fun _ => 0) := rfl
    rw [e]
    exact (Matrix.det_submatrix_equiv_self (seenEquiv seen t fun _ => 0) _).trans_ne h
  rw [innovCov, add_comm]
  exact (isGram_of _).det_add_ne_zero hRd ((((covAt_isGram cholP0 seen hR ht.le).conj _).add (isGram_of _)).conj _)

theorem pred_ne_zero {T : ℕ} (cholP0 : Matrix (Fin nx) (Fin nx) ℝ) {θ : ℕ → Par nx ny} (seen : ℕ → Fin ny → Bool)
    (hR : ∀ t < T, (θ t).cholR.det ≠ 0) (hQ : ∀ t < T, (θ t).cholQ.det ≠ 0) {t : ℕ} (ht : t < T) :
    ((θ t).F * covAt cholP0 θ seen t * (θ t).Fᵀ + (θ t).cholQ * (θ t).cholQᵀ).det ≠ 0 := by
  rw [add_comm]
  refine (isGram_of _).det_add_ne_zero ?_ ((covAt_isGram cholP0 seen hR ht.le).conj _)
  rw [Matrix.det_mul, Matrix.det_transpose]
  exact mul_ne_zero (hQ t ht) (hQ t ht)

section
variable {μ : Measure Ω} [IsProbabilityMeasure μ] {T : ℕ} (m0 : Fin nx → ℝ) (cholP0 : Matrix (Fin nx) (Fin nx) ℝ)
  (θ : ℕ → Par nx ny) (seen : ℕ → Fin ny → Bool) (z : ∀ t, Seen seen t → SqInt μ)

/-- The means of the filter on the data `z`. -/
def fZ : ℕ → Fin nx → SqInt μ :=
  fmean (oneSq μ) m0 (fun t => (θ t).F) (fun t => (θ t).cholQ * (θ t).cholQᵀ) (fun t => (θ t).c)
    (fun t => seenRows seen t (θ t).H) (fun t (i : Seen seen t) => (θ t).d i.1)
    (fun t => seenRows seen t (θ t).cholR * (seenRows seen t (θ t).cholR)ᵀ) (covAt cholP0 θ seen) z

/-- The means of the smoother at time `T - k` on the data `z`. -/
def sZ (T : ℕ) : ℕ → Fin nx → SqInt μ :=
  smean (fun t => (θ t).F) (fun t => (θ t).cholQ * (θ t).cholQᵀ) (fun t => (θ t).c) (oneSq μ) (covAt cholP0 θ seen)
    (fZ m0 cholP0 θ seen z) T

theorem sZ_mem (T : ℕ) : ∀ k ≤ T, ∀ i, sZ m0 cholP0 θ seen z T k i ∈ SecondOrder.data (oneSq μ) z T
  | 0, _, i => fmean_mem _ T i
  | k + 1, hk, i => by
    have hf : ∀ i, fZ m0 cholP0 θ seen z (T - (k + 1)) i ∈ SecondOrder.data (oneSq μ) z T := fun i =>
      data_mono (Nat.sub_le _ _) (fmean_mem _ _ i)
    rw [sZ, smean]
    exact Submodule.add_mem _ (hf i) (act_mem _ (fun j => Submodule.sub_mem _ (sZ_mem T k (by omega) j)
      (Submodule.add_mem _ (act_mem _ hf j) (cst_mem (one_mem_data _ _ _) _ j))) i)

variable {z}

theorem kfAt_data (u₀ : Step nx ny) {w : ℕ → Fin ny → ℝ} {ω : Ω} (hz : ∀ t < T, ev (z t) ω = fun i => w t i.1) :
    ∀ t ≤ T, (kfAt (dataCallbacks m0 cholP0) u₀ (seenSteps θ seen T w) t).m = ev (fZ m0 cholP0 θ seen z t) ω ∧
      (kfAt (dataCallbacks m0 cholP0) u₀ (seenSteps θ seen T w) t).P = covAt cholP0 θ seen t
  | 0, _ => ⟨(ev_cst m0 ω).symm, rfl⟩
  | t + 1, ht => by
    obtain ⟨h1, h2⟩ := kfAt_data u₀ hz t (by omega)
    rw [kfAt_succ _ _ _ _ _ (seenSteps_get θ seen _ (show t < T by omega))]
    have he : stepOf (dataCallbacks m0 cholP0) (seenStep θ seen t (w t)) = seenStep θ seen t (w t) := rfl
    obtain ⟨h3, h4⟩ := kfStep_seen (kfAt (dataCallbacks m0 cholP0) u₀ (seenSteps θ seen T w) t) θ seen t (w t)
    rw [he, h3, h4, h1, h2]
    refine ⟨?_, rfl⟩
    rw [fZ, fmean]
    simp only [ev_add, ev_act, ev_sub, ev_cst, hz t (show t < T by omega), condMean, Matrix.mulVec_mulVec, Matrix.mul_assoc]

theorem backMarg_data (u₀ : Step nx ny) {w : ℕ → Fin ny → ℝ} {ω : Ω} (hz : ∀ t < T, ev (z t) ω = fun i => w t i.1)
    (LT : Matrix (Fin nx) (Fin nx) ℝ) (hL : LT * LTᵀ = covAt cholP0 θ seen T) : ∀ k ≤ T, ∀ bs,
    IsBackwardChain (kfAt (dataCallbacks m0 cholP0) u₀ (seenSteps θ seen T w) (T - k))
      (((seenSteps θ seen T w).drop (T - k)).map (stepOf (dataCallbacks m0 cholP0))) bs →
    backMarg (kfAt (dataCallbacks m0 cholP0) u₀ (seenSteps θ seen T w) T).m LT bs =
      (ev (sZ m0 cholP0 θ seen z T k) ω,
        scov (fun t => (θ t).F) (fun t => (θ t).cholQ * (θ t).cholQᵀ) (covAt cholP0 θ seen) T k)
  | 0, _, bs, h => by
    rw [Nat.sub_zero, List.drop_of_length_le (seenSteps_length _ _ _ _).le, List.map_nil] at h
    cases bs with
    | cons b bs => exact h.elim
    | nil => exact Prod.ext (kfAt_data m0 cholP0 θ seen u₀ hz T le_rfl).1 hL
  | k + 1, hk, bs, h => by
    obtain ⟨t, ht⟩ : ∃ t, t = T - (k + 1) := ⟨_, rfl⟩
    have htT : t < T := by omega
    have ht' : T - k = t + 1 := by omega
    rw [← ht] at h
    have hlt : t < (seenSteps θ seen T w).length := by rwa [seenSteps_length]
    have hu := seenSteps_get θ seen w htT
    rw [List.drop_eq_getElem_cons hlt, List.map_cons, (List.getElem?_eq_some_iff.1 hu).2] at h
    cases bs with
    | nil => exact h.elim
    | cons b bs =>
      obtain ⟨hb, hc⟩ := h
      rw [← kfAt_succ _ _ _ _ _ hu, ← ht'] at hc
      have ih := backMarg_data u₀ hz LT hL k (by omega) bs hc
      obtain ⟨e1, e2⟩ := kfAt_data m0 cholP0 θ seen u₀ hz t htT.le
      have hg := hb.gain
      have hm := hb.mean (ev (sZ m0 cholP0 θ seen z T k) ω)
      have hcov := hb.cov
      rw [e2] at hg hcov
      rw [e1, e2, condMean_affine] at hm
      rw [backMarg, ih]
      refine Prod.ext ?_ ?_
      · refine hm.trans ?_
        rw [sZ, smean, ← ht]
        simp only [ev_add, ev_act, ev_sub, ev_cst]
        change (covAt cholP0 θ seen t * (θ t).Fᵀ * (innovCov (covAt cholP0 θ seen t) (θ t).F ((θ t).cholQ * (θ t).cholQᵀ))⁻¹) *ᵥ
            ev (sZ m0 cholP0 θ seen z T k) ω + (ev (fZ m0 cholP0 θ seen z t) ω - (covAt cholP0 θ seen t * (θ t).Fᵀ *
              (innovCov (covAt cholP0 θ seen t) (θ t).F ((θ t).cholQ * (θ t).cholQᵀ))⁻¹) *ᵥ
                ((θ t).F *ᵥ ev (fZ m0 cholP0 θ seen z t) ω + (θ t).c)) =
          ev (fZ m0 cholP0 θ seen z t) ω + (covAt cholP0 θ seen t * (θ t).Fᵀ * (innovCov (covAt cholP0 θ seen t) (θ t).F
            ((θ t).cholQ * (θ t).cholQᵀ))⁻¹) *ᵥ (ev (sZ m0 cholP0 θ seen z T k) ω -
              ((θ t).F *ᵥ ev (fZ m0 cholP0 θ seen z t) ω + (θ t).c))
        rw [Matrix.mulVec_sub]
        abel
      · rw [scov, ← ht, hg, hcov]
        exact add_comm _ _

variable {θ} {K : Type}

/-- The filter returns the recursion. -/
theorem run_filter_data (qr : QR) (rng : Prng K) (parallel : Bool) (key : Option K) (hR : ∀ t < T, (θ t).cholR.det ≠ 0)
    (u₀ : Step nx ny) {w : ℕ → Fin ny → ℝ} {ω : Ω} (hz : ∀ t < T, ev (z t) ω = fun i => w t i.1) (t : ℕ) (ht : t ≤ T) :
    ∃ states s L, (filter rng (buildFilter qr (dataCallbacks m0 cholP0)) (u₀ :: seenSteps θ seen T w) parallel key).result =
        .ok states ∧ states[t]? = some s ∧ s.mean = some (ev (fZ m0 cholP0 θ seen z t) ω) ∧ s.cholCov = some L ∧
        L * Lᵀ = covAt cholP0 θ seen t := by
  have hR' := seenSteps_R hR seen m0 cholP0 w
  obtain ⟨states, h4, h5, -⟩ := kalman_filter_exact qr rng (dataCallbacks m0 cholP0) u₀ (seenSteps θ seen T w) parallel key hR'
  rw [seenSteps_length] at h5
  have h6 : states[t]? = some (states[t]'(by omega)) := List.getElem?_eq_getElem _
  obtain ⟨-, h7, L, h8, h9⟩ := filter_mean_cov qr rng _ u₀ _ parallel key hR' h4 h6
  obtain ⟨e1, e2⟩ := kfAt_data m0 cholP0 θ seen u₀ hz t ht
  exact ⟨states, _, L, h4, h6, h7.trans (congrArg some e1), h8, h9.trans e2⟩

theorem seenSteps_pred (hQ : ∀ t < T, (θ t).cholQ.det ≠ 0) (w : ℕ → Fin ny → ℝ) {X : Type*} (fs : List X)
    (f : X → Option (Matrix (Fin nx) (Fin nx) ℝ)) : ∀ (t : ℕ) s L u, fs[t]? = some s → f s = some L →
      (seenSteps θ seen T w)[t]? = some u →
      ((stepOf (dataCallbacks m0 cholP0) u).F * (L * Lᵀ) * ((stepOf (dataCallbacks m0 cholP0) u).F)ᵀ +
        (stepOf (dataCallbacks m0 cholP0) u).cholQ * ((stepOf (dataCallbacks m0 cholP0) u).cholQ)ᵀ).det ≠ 0 := by
  intro t s L u _ _ hu
  obtain ⟨t', ht', rfl⟩ := List.mem_map.mp (List.mem_of_getElem? hu)
  rw [add_comm]
  refine (isGram_of _).det_add_ne_zero ?_ ((isGram_of L).conj _)
  rw [Matrix.det_mul, Matrix.det_transpose]
  exact mul_ne_zero (hQ t' (List.mem_range.mp ht')) (hQ t' (List.mem_range.mp ht'))

/-- The smoother returns the recursion. -/
theorem run_smoother_data (qr : QR) (rng rng' : Prng K) (parallel parallel' : Bool) (key key' : Option K) (hT : 0 < T)
    (hR : ∀ t < T, (θ t).cholR.det ≠ 0) (hQ : ∀ t < T, (θ t).cholQ.det ≠ 0) (u₀ : Step nx ny)
    (opts : SmootherOpts nx (Step nx ny)) {w : ℕ → Fin ny → ℝ} {ω : Ω} (hz : ∀ t < T, ev (z t) ω = fun i => w t i.1)
    (k : ℕ) (hk : k ≤ T) :
    ∃ fs states s L, (filter rng (buildFilter qr (dataCallbacks m0 cholP0)) (u₀ :: seenSteps θ seen T w) parallel key).result =
        .ok fs ∧
      (smoother rng' FilterState.modelInputs (fun u => .ok (opts.dummy u))
          (buildSmoother qr (dataCallbacks (ny := ny) m0 cholP0).getDynamics opts) fs none parallel' key').result =
        .ok states ∧ states[T - k]? = some s ∧ s.mean = some (ev (sZ m0 cholP0 θ seen z T k) ω) ∧ s.cholCov = some L ∧
      L * Lᵀ = scov (fun t => (θ t).F) (fun t => (θ t).cholQ * (θ t).cholQᵀ) (covAt cholP0 θ seen) T k := by
  have hR' := seenSteps_R hR seen m0 cholP0 w
  obtain ⟨fs, h4, -, -⟩ := kalman_filter_exact qr rng (dataCallbacks m0 cholP0) u₀ (seenSteps θ seen T w) parallel key hR'
  have hne : seenSteps θ seen T w ≠ [] := fun h => by
    have := seenSteps_length θ seen T w
    rw [h] at this
    simp at this
    omega
  obtain ⟨states, LT, h5, h6, h7, h8⟩ := smoother_run_facts qr rng rng' (dataCallbacks m0 cholP0) u₀ _ hne parallel parallel'
    key key' opts (fun u hu => ScanOk.of_R _ (hR' u hu)) fs h4 (seenSteps_pred m0 cholP0 seen hQ w fs _) none (Or.inl rfl)
  rw [seenSteps_length] at h7 h8
  obtain ⟨s, e, bs, h9, h10, h11, h12, -⟩ := h8 (T - k) (by omega)
  rw [(kfAt_data m0 cholP0 θ seen u₀ hz T le_rfl).2] at h7
  rw [backMarg_data m0 cholP0 θ seen u₀ hz LT h7 k hk bs h11] at h12
  refine ⟨fs, states, s, e.D, h4, h5, h9, ?_, ?_, congrArg SElem.C h12⟩
  · rw [SmootherState.mean, h10]
    exact congrArg some (congrArg SElem.g h12)
  · rw [SmootherState.cholCov, h10]
    rfl

end

/-! ### The noise -/

section
variable {μ : Measure Ω} [IsProbabilityMeasure μ] {T : ℕ} {m0 : Fin nx → ℝ} {cholP0 : Matrix (Fin nx) (Fin nx) ℝ}
  {θ : ℕ → Par nx ny} {x : ℕ → Ω → Fin nx → ℝ} {y : ℕ → Ω → Fin ny → ℝ}

/-- Only the steps before `T` matter. -/
theorem seenSteps_until (cholQ : ℕ → Matrix (Fin nx) (Fin nx) ℝ) (cholR : ℕ → Matrix (Fin ny) (Fin ny) ℝ)
    (seen : ℕ → Fin ny → Bool) (w : ℕ → Fin ny → ℝ) : seenSteps (withNoise θ cholQ cholR) seen T w =
      seenSteps (withNoise θ (fun t => if t < T then cholQ t else (θ t).cholQ)
        fun t => if t < T then cholR t else (θ t).cholR) seen T w := by
  refine List.map_congr_left fun t ht => ?_
  simp only [withNoise, if_pos (List.mem_range.mp ht)]

theorem below_sqrt {ι : Type*} [Fintype ι] [DecidableEq ι] {A B : Matrix ι ι ℝ} (h : Below A B) : ∃ W : Matrix ι ι ℝ, B = A + W * Wᵀ := by
  obtain ⟨W, hW⟩ := (isGram_iff.2 h).exists_sqrt
  exact ⟨W, by rw [hW, add_sub_cancel]⟩

theorem error_sq (M : UncorrelatedModel μ T m0 cholP0 θ x y) {s : ℕ} (hs : s ≤ T) (N : Fin nx → SqInt μ) (v : Fin nx → ℝ) :
    ∫ ω, (v ⬝ᵥ x s ω - v ⬝ᵥ ev N ω) ^ 2 ∂μ = v ⬝ᵥ mom (corr μ) (xE M s - N) (xE M s - N) *ᵥ v := by
  rw [quad_mom, corr_apply]
  refine integral_congr_ae (.of_forall fun ω => ?_)
  have e : (∑ i, v i • (xE M s - N) i : SqInt μ).1 ω = v ⬝ᵥ x s ω - v ⬝ᵥ ev N ω := by
    rw [← ev_xE M ω s hs, ← dotProduct_sub, ← ev_sub]
    simp only [AddSubmonoidClass.coe_finsetSum, Finset.sum_apply]
    rfl
  simp only [e, pow_two]

theorem error_mean (M : UncorrelatedModel μ T m0 cholP0 θ x y) {s : ℕ} (hs : s ≤ T) (N : Fin nx → SqInt μ)
    (h : ∀ i, corr μ ((xE M s - N) i) (oneSq μ) = 0) (i : Fin nx) : ∫ ω, (x s ω i - ev N ω i) ∂μ = 0 := by
  have := h i
  rw [corr_apply] at this
  have hx : ∀ ω, ((xE M s - N) i).1 ω = x s ω i - ev N ω i := fun ω => by
    rw [← ev_xE M ω s hs]; rfl
  simpa only [hx, oneSq, mul_one] using this

variable {K : Type}

variable {cholP0' : Matrix (Fin nx) (Fin nx) ℝ} {cholQ' : ℕ → Matrix (Fin nx) (Fin nx) ℝ}
  {cholR' : ℕ → Matrix (Fin ny) (Fin ny) ℝ}

theorem Overstates.all (h : Overstates T cholP0 θ cholP0' cholQ' cholR') :
    (∀ t, Below ((θ t).cholQ * (θ t).cholQᵀ) ((if t < T then cholQ' t else (θ t).cholQ) *
      (if t < T then cholQ' t else (θ t).cholQ)ᵀ)) ∧
    ∀ t, Below ((θ t).cholR * (θ t).cholRᵀ) ((if t < T then cholR' t else (θ t).cholR) *
      (if t < T then cholR' t else (θ t).cholR)ᵀ) := by
  refine ⟨fun t => ?_, fun t => ?_⟩
  · split_ifs with ht
    · exact h.dyn t ht
    · exact Below.refl _
  · split_ifs with ht
    · exact h.obs t ht
    · exact Below.refl _

theorem filter_le_all (M : UncorrelatedModel μ T m0 cholP0 θ x y) (seen : ℕ → Fin ny → Bool)
    (hP0 : Below (cholP0 * cholP0ᵀ) (cholP0' * cholP0'ᵀ))
    (hQ : ∀ t, Below ((θ t).cholQ * (θ t).cholQᵀ) (cholQ' t * (cholQ' t)ᵀ))
    (hR : ∀ t, Below ((θ t).cholR * (θ t).cholRᵀ) (cholR' t * (cholR' t)ᵀ)) (hR' : ∀ t < T, (cholR' t).det ≠ 0) :
    (∀ t ≤ T, (∀ i, corr μ ((xE M t - fZ m0 cholP0' (withNoise θ cholQ' cholR') seen (zE M seen) t) i) (oneSq μ) = 0) ∧
      ∀ v : Fin nx → ℝ, v ⬝ᵥ mom (corr μ) (xE M t - fZ m0 cholP0' (withNoise θ cholQ' cholR') seen (zE M seen) t)
        (xE M t - fZ m0 cholP0' (withNoise θ cholQ' cholR') seen (zE M seen) t) *ᵥ v ≤
          v ⬝ᵥ covAt cholP0' (withNoise θ cholQ' cholR') seen t *ᵥ v) ∧
    ((∀ t < T, (cholQ' t).det ≠ 0) → ∀ k ≤ T,
      (∀ i, corr μ ((xE M (T - k) - sZ m0 cholP0' (withNoise θ cholQ' cholR') seen (zE M seen) T k) i) (oneSq μ) = 0) ∧
      ∀ v : Fin nx → ℝ, v ⬝ᵥ mom (corr μ) (xE M (T - k) - sZ m0 cholP0' (withNoise θ cholQ' cholR') seen (zE M seen) T k)
        (xE M (T - k) - sZ m0 cholP0' (withNoise θ cholQ' cholR') seen (zE M seen) T k) *ᵥ v ≤
          v ⬝ᵥ scov (fun t => (θ t).F) (fun t => cholQ' t * (cholQ' t)ᵀ)
            (covAt cholP0' (withNoise θ cholQ' cholR') seen) T k *ᵥ v) := by
  obtain ⟨U0, h0⟩ := below_sqrt hP0
  choose UQ hUQ using fun t => below_sqrt (hQ t)
  choose UR hUR using fun t => below_sqrt (hR t)
  have hR2 : (fun t => seenRows seen t (cholR' t) * (seenRows seen t (cholR' t))ᵀ) = fun t =>
      seenRows seen t (θ t).cholR * (seenRows seen t (θ t).cholR)ᵀ +
        seenRows seen t (UR t) * (seenRows seen t (UR t))ᵀ := by
    funext t
    exact congrArg (fun A : Matrix (Fin ny) (Fin ny) ℝ =>
      A.submatrix (Subtype.val : Seen seen t → Fin ny) (Subtype.val : Seen seen t → Fin ny)) (hUR t)
  have hQ2 : (fun t => cholQ' t * (cholQ' t)ᵀ) = fun t => (θ t).cholQ * (θ t).cholQᵀ + UQ t * (UQ t)ᵀ := funext hUQ
  refine ⟨fun t ht => ?_, fun hQ' k hk => ?_⟩
  · exact (modelE M seen).filter_le U0 UQ (fun t => seenRows seen t (UR t)) (covAt cholP0' (withNoise θ cholQ' cholR') seen)
      h0 hQ2 hR2 (fun _ _ => rfl) (fun t ht => innov_ne_zero cholP0' (θ := withNoise θ cholQ' cholR') seen hR' ht) t ht
  · exact (modelE M seen).smoother_le U0 UQ (fun t => seenRows seen t (UR t)) (covAt cholP0' (withNoise θ cholQ' cholR') seen)
      h0 hQ2 hR2 (fun _ _ => rfl) (fun t ht => innov_ne_zero cholP0' (θ := withNoise θ cholQ' cholR') seen hR' ht)
      (fun t ht => pred_ne_zero cholP0' (θ := withNoise θ cholQ' cholR') seen hR' hQ' ht) k hk

/-- **C142** (filter, noise overstated). Let the process have the means and covariances of the model `θ`, and let the
filter be run with noise factors `cholP0'`, `cholQ'` and `cholR'` that give at least the noise of the process. The mean it
returns is unbiased, and for every linear functional of the state the variance it returns is at least the mean squared
error of its mean. -/
theorem filter_overstated (qr : QR) (rng : Prng K) (parallel : Bool) (key : Option K)
    (M : UncorrelatedModel μ T m0 cholP0 θ x y) (h : Overstates T cholP0 θ cholP0' cholQ' cholR')
    (hR' : ∀ t < T, (cholR' t).det ≠ 0) (seen : ℕ → Fin ny → Bool) (u₀ : Step nx ny) (t : ℕ) (ht : t ≤ T) :
    ∃ (m : Ω → Fin nx → ℝ) (P : Matrix (Fin nx) (Fin nx) ℝ),
      (∀ ω, ∃ states s L, (filter rng (buildFilter qr (dataCallbacks m0 cholP0'))
        (u₀ :: seenSteps (withNoise θ cholQ' cholR') seen T fun t => y t ω) parallel key).result = .ok states ∧
          states[t]? = some s ∧ s.mean = some (m ω) ∧ s.cholCov = some L ∧ L * Lᵀ = P) ∧
      (∀ i, ∫ ω, (x t ω i - m ω i) ∂μ = 0) ∧
      ∀ v : Fin nx → ℝ, ∫ ω, (v ⬝ᵥ x t ω - v ⬝ᵥ m ω) ^ 2 ∂μ ≤ v ⬝ᵥ P *ᵥ v := by
  simp only [seenSteps_until cholQ' cholR']
  obtain ⟨hQ1, hR1⟩ := Overstates.all h
  have hR2 : ∀ t < T, (if t < T then cholR' t else (θ t).cholR).det ≠ 0 := fun t ht => by rw [if_pos ht]; exact hR' t ht
  obtain ⟨h1, h2⟩ := (filter_le_all M seen h.init hQ1 hR1 hR2).1 t ht
  exact ⟨_, _, fun ω => run_filter_data m0 cholP0' seen qr rng parallel key hR2 u₀ (fun t ht => ev_zE M seen ω ht) t ht,
    error_mean M ht _ h1, fun v => (error_sq M ht _ v).trans_le (h2 v)⟩

/-- **C142** (smoother, noise overstated). The same for what the smoother returns, in every combination of modes. -/
theorem smoother_overstated (qr : QR) (rng rng' : Prng K) (parallel parallel' : Bool) (key key' : Option K) (hT : 0 < T)
    (M : UncorrelatedModel μ T m0 cholP0 θ x y) (h : Overstates T cholP0 θ cholP0' cholQ' cholR')
    (hR' : ∀ t < T, (cholR' t).det ≠ 0) (hQ' : ∀ t < T, (cholQ' t).det ≠ 0) (seen : ℕ → Fin ny → Bool) (u₀ : Step nx ny)
    (opts : SmootherOpts nx (Step nx ny)) (t : ℕ) (ht : t ≤ T) :
    ∃ (m : Ω → Fin nx → ℝ) (P : Matrix (Fin nx) (Fin nx) ℝ),
      (∀ ω, ∃ fs states s L, (filter rng (buildFilter qr (dataCallbacks m0 cholP0'))
        (u₀ :: seenSteps (withNoise θ cholQ' cholR') seen T fun t => y t ω) parallel key).result = .ok fs ∧
        (smoother rng' FilterState.modelInputs (fun u => .ok (opts.dummy u))
          (buildSmoother qr (dataCallbacks (ny := ny) m0 cholP0').getDynamics opts) fs none parallel' key').result =
            .ok states ∧ states[t]? = some s ∧ s.mean = some (m ω) ∧ s.cholCov = some L ∧ L * Lᵀ = P) ∧
      (∀ i, ∫ ω, (x t ω i - m ω i) ∂μ = 0) ∧
      ∀ v : Fin nx → ℝ, ∫ ω, (v ⬝ᵥ x t ω - v ⬝ᵥ m ω) ^ 2 ∂μ ≤ v ⬝ᵥ P *ᵥ v := by
  obtain ⟨k, hk, rfl⟩ : ∃ k ≤ T, t = T - k := ⟨T - t, by omega, by omega⟩
  simp only [seenSteps_until cholQ' cholR']
  obtain ⟨hQ1, hR1⟩ := Overstates.all h
  have hR2 : ∀ t < T, (if t < T then cholR' t else (θ t).cholR).det ≠ 0 := fun t ht => by rw [if_pos ht]; exact hR' t ht
  have hQ2 : ∀ t < T, (if t < T then cholQ' t else (θ t).cholQ).det ≠ 0 := fun t ht => by rw [if_pos ht]; exact hQ' t ht
  obtain ⟨h1, h2⟩ := (filter_le_all M seen h.init hQ1 hR1 hR2).2 hQ2 k hk
  exact ⟨_, _, fun ω => run_smoother_data m0 cholP0' seen qr rng rng' parallel parallel' key key' hT hR2 hQ2 u₀ opts
    (fun t ht => ev_zE M seen ω ht) k hk, error_mean M ht _ h1, fun v => (error_sq M ht _ v).trans_le (h2 v)⟩

/-! ### Noise understated -/

theorem nonempty_of_prob (μ : Measure Ω) [IsProbabilityMeasure μ] : Nonempty Ω := by
  by_contra h
  rw [not_nonempty_iff] at h
  have := measure_univ (μ := μ)
  rw [Set.univ_eq_empty_iff.2 h, measure_empty] at this
  exact zero_ne_one this

theorem det_of_below {ι : Type*} [Fintype ι] [DecidableEq ι] {A B : Matrix ι ι ℝ} (h : Below (A * Aᵀ) (B * Bᵀ))
    (hA : A.det ≠ 0) : B.det ≠ 0 := by
  have h1 := (isGram_of A).det_add_ne_zero (by rw [Matrix.det_mul, Matrix.det_transpose]; exact mul_ne_zero hA hA)
    (isGram_iff.2 h)
  rw [add_sub_cancel, Matrix.det_mul] at h1
  exact left_ne_zero_of_mul h1

theorem Understates.noisier (h : Understates T cholP0 θ cholP0' cholQ' cholR') (seen : ℕ → Fin ny → Bool)
    (w : ℕ → Fin ny → ℝ) : List.Forall₂ Noisier
      ((seenSteps (withNoise θ cholQ' cholR') seen T w).map (stepOf (dataCallbacks m0 cholP0')))
      ((seenSteps θ seen T w).map (stepOf (dataCallbacks m0 cholP0))) := by
  rw [List.forall₂_map_left_iff, List.forall₂_map_right_iff, seenSteps, seenSteps, List.forall₂_map_left_iff,
    List.forall₂_map_right_iff]
  refine List.forall₂_same.2 fun t ht => ?_
  have ht' := List.mem_range.mp ht
  exact ⟨rfl, rfl, h.dyn t ht', h.obs t ht', fun i hi => hi⟩

/-- No element of the data's span has a smaller error. -/
theorem error_ge (M : UncorrelatedModel μ T m0 cholP0 θ x y) {seen : ℕ → Fin ny → Bool} {s t : ℕ} (hs : s ≤ T)
    {N N' : Fin nx → SqInt μ} {V : Matrix (Fin nx) (Fin nx) ℝ}
    (h1 : ∀ i, N i ∈ SecondOrder.data (oneSq μ) (zE M seen) t) (h2 : mom (corr μ) (xE M s - N) (xE M s - N) = V)
    (h3 : SecondOrder.data (oneSq μ) (zE M seen) t ≤ orth (corr μ) (xE M s - N))
    (h4 : ∀ i, N' i ∈ SecondOrder.data (oneSq μ) (zE M seen) t) (v : Fin nx → ℝ) :
    v ⬝ᵥ V *ᵥ v ≤ ∫ ω, (v ⬝ᵥ x s ω - v ⬝ᵥ ev N' ω) ^ 2 ∂μ := by
  have h5 := (best (corr_symm μ) (corr_nonneg μ) h1 h3 v
    (Submodule.sum_mem _ fun i _ => Submodule.smul_mem _ (v i) (h4 i) : ∑ i, v i • N' i ∈ _)).2
  rw [h2, ← Finset.sum_sub_distrib] at h5
  rw [error_sq M hs, quad_mom]
  simpa only [Pi.sub_apply, smul_sub] using h5

theorem quad_below {ι : Type*} [Fintype ι] [DecidableEq ι] {A B : Matrix ι ι ℝ} (h : Below A B) (v : ι → ℝ) :
    v ⬝ᵥ A *ᵥ v ≤ v ⬝ᵥ B *ᵥ v := by
  have := gram_quad_nonneg (isGram_iff.2 h) v
  rw [Matrix.sub_mulVec, dotProduct_sub] at this
  linarith

/-- **C142** (filter, noise understated). If the noise factors give at most the noise of the process, then for every linear
functional of the state the variance that the filter returns is at most the mean squared error of its mean. -/
theorem filter_understated (qr : QR) (rng : Prng K) (parallel : Bool) (key : Option K)
    (M : UncorrelatedModel μ T m0 cholP0 θ x y) (h : Understates T cholP0 θ cholP0' cholQ' cholR')
    (hR' : ∀ t < T, (cholR' t).det ≠ 0) (seen : ℕ → Fin ny → Bool) (u₀ : Step nx ny) (t : ℕ) (ht : t ≤ T) :
    ∃ (m : Ω → Fin nx → ℝ) (P : Matrix (Fin nx) (Fin nx) ℝ),
      (∀ ω, ∃ states s L, (filter rng (buildFilter qr (dataCallbacks m0 cholP0'))
        (u₀ :: seenSteps (withNoise θ cholQ' cholR') seen T fun t => y t ω) parallel key).result = .ok states ∧
          states[t]? = some s ∧ s.mean = some (m ω) ∧ s.cholCov = some L ∧ L * Lᵀ = P) ∧
      ∀ v : Fin nx → ℝ, v ⬝ᵥ P *ᵥ v ≤ ∫ ω, (v ⬝ᵥ x t ω - v ⬝ᵥ m ω) ^ 2 ∂μ := by
  have hR : ∀ t < T, (θ t).cholR.det ≠ 0 := fun t ht => det_of_below (h.obs t ht) (hR' t ht)
  have hrun := fun ω => run_filter_data m0 cholP0' (θ := withNoise θ cholQ' cholR') seen qr rng parallel key hR' u₀
    (fun t ht => ev_zE M seen ω ht) t ht
  refine ⟨_, _, hrun, fun v => ?_⟩
  obtain ⟨h2, h3⟩ := (modelE M seen).filter (covAt cholP0 θ seen) rfl (fun _ _ => rfl)
    (fun t ht => innov_seen M seen hR ht) t ht
  refine le_trans (quad_below ?_ v) (error_ge M ht (fmean_mem _ t) h2 h3 (fmean_mem _ t) v)
  obtain ⟨ω⟩ := nonempty_of_prob μ
  obtain ⟨ss, s, L, e1, e2, -, e3, e4⟩ := hrun ω
  obtain ⟨ss', s', L', f1, f2, -, f3, f4⟩ := run_filter_data m0 cholP0 seen qr rng parallel key hR u₀
    (fun t ht => ev_zE M seen ω ht) t ht
  obtain ⟨L₁, L₁', g1, g2, g3⟩ := filter_covariance_monotone qr qr rng rng (dataCallbacks m0 cholP0') (dataCallbacks m0 cholP0)
    parallel parallel key key h.init (Understates.noisier h seen _)
    (seenSteps_R (θ := withNoise θ cholQ' cholR') hR' seen m0 cholP0' _) e1 f1 t s s' e2 f2
  rw [e3, Option.some.injEq] at g1
  rw [f3, Option.some.injEq] at g2
  subst g1 g2
  rwa [e4, f4] at g3

/-- **C142** (smoother, noise understated). The same for what the smoother returns, in every combination of modes. -/
theorem smoother_understated (qr : QR) (rng rng' : Prng K) (parallel parallel' : Bool) (key key' : Option K) (hT : 0 < T)
    (M : UncorrelatedModel μ T m0 cholP0 θ x y) (h : Understates T cholP0 θ cholP0' cholQ' cholR')
    (hR' : ∀ t < T, (cholR' t).det ≠ 0) (hQ' : ∀ t < T, (cholQ' t).det ≠ 0) (seen : ℕ → Fin ny → Bool) (u₀ : Step nx ny)
    (opts : SmootherOpts nx (Step nx ny)) (t : ℕ) (ht : t ≤ T) :
    ∃ (m : Ω → Fin nx → ℝ) (P : Matrix (Fin nx) (Fin nx) ℝ),
      (∀ ω, ∃ fs states s L, (filter rng (buildFilter qr (dataCallbacks m0 cholP0'))
        (u₀ :: seenSteps (withNoise θ cholQ' cholR') seen T fun t => y t ω) parallel key).result = .ok fs ∧
        (smoother rng' FilterState.modelInputs (fun u => .ok (opts.dummy u))
          (buildSmoother qr (dataCallbacks (ny := ny) m0 cholP0').getDynamics opts) fs none parallel' key').result =
            .ok states ∧ states[t]? = some s ∧ s.mean = some (m ω) ∧ s.cholCov = some L ∧ L * Lᵀ = P) ∧
      ∀ v : Fin nx → ℝ, v ⬝ᵥ P *ᵥ v ≤ ∫ ω, (v ⬝ᵥ x t ω - v ⬝ᵥ m ω) ^ 2 ∂μ := by
  obtain ⟨k, hk, rfl⟩ : ∃ k ≤ T, t = T - k := ⟨T - t, by omega, by omega⟩
  have hR : ∀ t < T, (θ t).cholR.det ≠ 0 := fun t ht => det_of_below (h.obs t ht) (hR' t ht)
  have hQ : ∀ t < T, (θ t).cholQ.det ≠ 0 := fun t ht => det_of_below (h.dyn t ht) (hQ' t ht)
  have hrun := fun ω => run_smoother_data m0 cholP0' (θ := withNoise θ cholQ' cholR') seen qr rng rng' parallel parallel'
    key key' hT hR' hQ' u₀ opts (fun t ht => ev_zE M seen ω ht) k hk
  refine ⟨_, _, hrun, fun v => ?_⟩
  obtain ⟨h1, h2, h3⟩ := (modelE M seen).smoother (covAt cholP0 θ seen) rfl (fun _ _ => rfl)
    (fun t ht => innov_seen M seen hR ht) (fun t ht => predict_seen M seen hR hQ ht) k hk
  refine le_trans (quad_below ?_ v) (error_ge M ht h1 h2 h3 (sZ_mem _ _ _ _ _ T k hk) v)
  obtain ⟨ω⟩ := nonempty_of_prob μ
  obtain ⟨fs, ss, s, L, e0, e1, e2, -, e3, e4⟩ := hrun ω
  obtain ⟨fs', ss', s', L', f0, f1, f2, -, f3, f4⟩ := run_smoother_data m0 cholP0 seen qr rng rng' parallel parallel'
    key key' hT hR hQ u₀ opts (fun t ht => ev_zE M seen ω ht) k hk
  have hne : (seenSteps (withNoise θ cholQ' cholR') seen T fun t => y t ω) ≠ [] := fun h => by
    have := seenSteps_length (withNoise θ cholQ' cholR') seen T fun t => y t ω
    rw [h] at this
    simp at this
    omega
  obtain ⟨L₁, L₁', g1, g2, g3⟩ := smoother_covariance_monotone qr qr rng rng' rng rng' (dataCallbacks m0 cholP0')
    (dataCallbacks m0 cholP0) hne parallel parallel' parallel parallel' key key' key key' opts opts h.init
    (Understates.noisier h seen _) (seenSteps_R (θ := withNoise θ cholQ' cholR') hR' seen m0 cholP0' _) e0 f0
    (seenSteps_pred m0 cholP0' (θ := withNoise θ cholQ' cholR') seen hQ' _ fs _) e1 f1 (T - k) s s' e2 f2
  rw [e3, Option.some.injEq] at g1
  rw [f3, Option.some.injEq] at g2
  subst g1 g2
  rwa [e4, f4] at g3

end

/-! ### Non-vacuity -/

/-- The process of `exists_uncorrelated`, and factors that give four times its noise, or a quarter of it. -/
theorem exists_misspecified : ∃ (μ : Measure (Bool × Bool)) (x : ℕ → Bool × Bool → Fin 1 → ℝ) (y : ℕ → Bool × Bool → Fin 1 → ℝ),
    IsProbabilityMeasure μ ∧ UncorrelatedModel (nx := 1) (ny := 1) μ 1 0 1 (fun _ => ⟨1, 0, 1, 1, 0, 1⟩) x y ∧
    Overstates (nx := 1) (ny := 1) 1 1 (fun _ => ⟨1, 0, 1, 1, 0, 1⟩) ((2 : ℝ) • 1) (fun _ => (2 : ℝ) • 1) (fun _ => (2 : ℝ) • 1) ∧
    Understates (nx := 1) (ny := 1) 1 1 (fun _ => ⟨1, 0, 1, 1, 0, 1⟩) ((1 / 2 : ℝ) • 1) (fun _ => (1 / 2 : ℝ) • 1)
      (fun _ => (1 / 2 : ℝ) • 1) ∧
    ((2 : ℝ) • (1 : Matrix (Fin 1) (Fin 1) ℝ)).det ≠ 0 ∧ ((1 / 2 : ℝ) • (1 : Matrix (Fin 1) (Fin 1) ℝ)).det ≠ 0 := by
  obtain ⟨μ, h1, h2⟩ := exists_uncorrelated
  have hb : ∀ a b : ℝ, a ^ 2 ≤ b ^ 2 → Below ((a • (1 : Matrix (Fin 1) (Fin 1) ℝ)) * (a • (1 : Matrix (Fin 1) (Fin 1) ℝ))ᵀ)
      ((b • (1 : Matrix (Fin 1) (Fin 1) ℝ)) * (b • (1 : Matrix (Fin 1) (Fin 1) ℝ))ᵀ) := by
    intro a b h
    have e : (b • (1 : Matrix (Fin 1) (Fin 1) ℝ)) * (b • (1 : Matrix (Fin 1) (Fin 1) ℝ))ᵀ -
        (a • (1 : Matrix (Fin 1) (Fin 1) ℝ)) * (a • (1 : Matrix (Fin 1) (Fin 1) ℝ))ᵀ = (b ^ 2 - a ^ 2) • 1 := by
      rw [Matrix.transpose_smul, Matrix.transpose_smul, Matrix.transpose_one, smul_mul_smul_comm, smul_mul_smul_comm,
        Matrix.one_mul, ← sub_smul, pow_two, pow_two]
    rw [Below, e]
    exact Matrix.PosSemidef.one.smul (by linarith)
  have o : (1 : Matrix (Fin 1) (Fin 1) ℝ) = (1 : ℝ) • 1 := (one_smul _ _).symm
  have h4 := hb 1 2 (by norm_num)
  have h5 := hb (1 / 2) 1 (by norm_num)
  rw [← o] at h4 h5
  exact ⟨μ, _, _, h1, h2, ⟨h4, fun _ _ => h4, fun _ _ => h4⟩, ⟨h5, fun _ _ => h5, fun _ _ => h5⟩, by simp, by simp⟩

end

end Cuthbert.Kalman
