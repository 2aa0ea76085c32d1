import Verif.Lemmas.ReversalLG
import Verif.Props.KalmanSmoother

/-!
# The Kalman filter and smoother do not depend on the direction of time (C143)
-/

namespace Cuthbert.Kalman
open MeasureTheory Matrix Cuthbert Cuthbert.Spec
open scoped ENNReal

noncomputable section

variable {nx ny : ℕ} {Inp Inp' K K' : Type}
variable {m : ℕ → Fin nx → ℝ} {P : ℕ → Matrix (Fin nx) (Fin nx) ℝ}

/-- **C143** (Kalman filter). Running the model backwards gives the observations the same evidence, in every combination of
modes. -/
theorem filter_reversed (qr qr' : QR) (rng : Prng K) (rng' : Prng K') (cb : Callbacks nx ny Inp)
    (cb' : Callbacks nx ny Inp') (u₀ : Inp) (u₀' : Inp') (us : List Inp) (us' : List Inp') (hus : us ≠ [])
    (h : ReversesLG m P (cb.getInit u₀).1 (cb.getInit u₀).2 (us.map (stepOf cb))
      (cb'.getInit u₀').1 (cb'.getInit u₀').2 (us'.map (stepOf cb')))
    (hR : ∀ u ∈ us, (stepOf cb u).R.det ≠ 0) (hR' : ∀ u ∈ us', (stepOf cb' u).R.det ≠ 0)
    (hl : IsLower (cb.getInit u₀).2) (hl' : IsLower (cb'.getInit u₀').2) (parallel parallel' : Bool)
    (key : Option K) (key' : Option K') :
    ∃ states states', (filter rng (buildFilter qr cb) (u₀ :: us) parallel key).result = .ok states ∧
      (filter rng' (buildFilter qr' cb') (u₀' :: us') parallel' key').result = .ok states' ∧
      ∃ s s' l, states[us.length]? = some s ∧ states'[us.length]? = some s' ∧
        (∀ v, s.logNormalizingConstant = some v → v = l) ∧ (∀ v, s'.logNormalizingConstant = some v → v = l) ∧
        ((∀ i, (cb.getInit u₀).2 i i ≠ 0) → (∀ u ∈ us, (parallel = false ∧ (stepOf cb u).F.det ≠ 0) ∨
          ((stepOf cb u).cholQ * ((stepOf cb u).cholQ)ᵀ).det ≠ 0) → s.logNormalizingConstant = some l) ∧
        ((∀ i, (cb'.getInit u₀').2 i i ≠ 0) → (∀ u ∈ us', (parallel' = false ∧ (stepOf cb' u).F.det ≠ 0) ∨
          ((stepOf cb' u).cholQ * ((stepOf cb' u).cholQ)ᵀ).det ≠ 0) → s'.logNormalizingConstant = some l) := by
  have hlen : us'.length = us.length := by simpa using h.length
  obtain ⟨states, h1, h2, h3⟩ := kalman_filter_exact qr rng cb u₀ us parallel key hR
  obtain ⟨states', h1', h2', h3'⟩ := kalman_filter_exact qr' rng' cb' u₀' us' parallel' key' hR'
  obtain ⟨s, m₁, L, l, h4, h5, h6, h7, h8⟩ := h3 us.length le_rfl
  obtain ⟨s', m₁', L', l', h4', h5', h6', h7', h8'⟩ := h3' us.length hlen.ge
  have e : l = l' := by
    have h9 := h7 (fun _ => 1) measurable_const
    have h9' := h7' (fun _ => 1) measurable_const
    rw [List.take_length, h.jointExp (by simpa using hus) measurable_const] at h9
    rw [← hlen, List.take_length] at h9'
    have e := h9.symm.trans h9'
    simp only [lintegral_const, measure_univ, mul_one] at e
    rwa [ENNReal.ofReal_eq_ofReal_iff (Real.exp_nonneg _) (Real.exp_nonneg _), Real.exp_eq_exp] at e
  subst e
  exact ⟨states, states', h1, h1', s, s', l, h4, h4', (h8 hl).1, (h8' hl').1, (h8 hl).2, (h8' hl').2⟩

/-- **C143** (Kalman smoother). The smoother of the model run backwards returns at time `t` the mean and the covariance that
the smoother of the model returns at time `T - t`, in every combination of modes. -/
theorem smoother_reversed (qr qr' : QR) (rng rngS : Prng K) (rng' rngS' : Prng K') (cb : Callbacks nx ny Inp)
    (cb' : Callbacks nx ny Inp') (u₀ : Inp) (u₀' : Inp') (us : List Inp) (us' : List Inp') (hus : us ≠ [])
    (h : ReversesLG m P (cb.getInit u₀).1 (cb.getInit u₀).2 (us.map (stepOf cb))
      (cb'.getInit u₀').1 (cb'.getInit u₀').2 (us'.map (stepOf cb')))
    (hR : ∀ u ∈ us, (stepOf cb u).R.det ≠ 0) (hR' : ∀ u ∈ us', (stepOf cb' u).R.det ≠ 0)
    (parallel parallelS parallel' parallelS' : Bool) (key keyS : Option K) (key' keyS' : Option K')
    (opts : SmootherOpts nx Inp) (opts' : SmootherOpts nx Inp')
    {fs : List (FilterState nx Inp)} {fs' : List (FilterState nx Inp')}
    (hf : (filter rng (buildFilter qr cb) (u₀ :: us) parallel key).result = .ok fs)
    (hf' : (filter rng' (buildFilter qr' cb') (u₀' :: us') parallel' key').result = .ok fs')
    (hP : ∀ (t : ℕ) s L u, fs[t]? = some s → s.cholCov = some L → us[t]? = some u →
      ((stepOf cb u).F * (L * Lᵀ) * ((stepOf cb u).F)ᵀ +
        (stepOf cb u).cholQ * ((stepOf cb u).cholQ)ᵀ).det ≠ 0)
    (hP' : ∀ (t : ℕ) s L u, fs'[t]? = some s → s.cholCov = some L → us'[t]? = some u →
      ((stepOf cb' u).F * (L * Lᵀ) * ((stepOf cb' u).F)ᵀ +
        (stepOf cb' u).cholQ * ((stepOf cb' u).cholQ)ᵀ).det ≠ 0) :
    ∃ (states : List (SmootherState nx Inp)) (states' : List (SmootherState nx Inp')),
      (smoother rngS FilterState.modelInputs (fun u => .ok (opts.dummy u))
        (buildSmoother qr cb.getDynamics opts) fs none parallelS keyS).result = .ok states ∧
      (smoother rngS' FilterState.modelInputs (fun u => .ok (opts'.dummy u))
        (buildSmoother qr' cb'.getDynamics opts') fs' none parallelS' keyS').result = .ok states' ∧
      ∀ t ≤ us.length, ∃ s s' x L L', states[us.length - t]? = some s ∧ states'[t]? = some s' ∧
        s.mean = some x ∧ s'.mean = some x ∧ s.cholCov = some L ∧ s'.cholCov = some L' ∧ L' * L'ᵀ = L * Lᵀ := by
  have hlen : us'.length = us.length := by simpa using h.length
  obtain ⟨states, l, h1, h2, h3, -⟩ := kalman_smoother_exact qr rng rngS cb u₀ us hus parallel parallelS key
    keyS opts hR fs hf hP none (.inl rfl)
  obtain ⟨states', l', h1', h2', h3', -⟩ := kalman_smoother_exact qr' rng' rngS' cb' u₀' us'
    (by rw [← List.length_pos_iff, hlen]; exact List.length_pos_iff.2 hus)
    parallel' parallelS' key' keyS' opts' hR' fs' hf' hP' none (.inl rfl)
  refine ⟨states, states', h1, h1', fun t ht => ?_⟩
  obtain ⟨s, x, L, h4, h5, h6, h7⟩ := h3 (us.length - t) (by omega)
  obtain ⟨s', x', L', h4', h5', h6', h7'⟩ := h3' t (by omega)
  obtain ⟨-, e2, e3⟩ := weighted_gauss_injective (m := x') (m' := x) (L := L') (M := L) (l := l') (l' := l)
    fun φ hφ => by
      have hm : Measurable fun p : ℕ → Fin nx → ℝ => φ (p (us.length - t)) := hφ.comp (measurable_pi_apply _)
      rw [← h7' φ hφ, ← h7 φ hφ, h.jointExp (by simpa using hus) hm]
      simp only [List.length_map, Nat.sub_sub_self ht]
  subst e2
  exact ⟨s, s', x', L, L', h4, h4', h5, h5', h6, h6', e3⟩

/-- Mean and covariance of the states of a model. -/
def momentsAt (m₀ : Fin nx → ℝ) (P₀ : Matrix (Fin nx) (Fin nx) ℝ) (ss : List (Step nx ny)) :
    ℕ → (Fin nx → ℝ) × Matrix (Fin nx) (Fin nx) ℝ
  | 0 => (m₀, P₀)
  | t + 1 => match ss[t]? with
    | none => momentsAt m₀ P₀ ss t
    | some s => (s.F *ᵥ (momentsAt m₀ P₀ ss t).1 + s.c,
        s.F * (momentsAt m₀ P₀ ss t).2 * s.Fᵀ + s.cholQ * s.cholQᵀ)

theorem momentsAt_succ (m₀ : Fin nx → ℝ) (P₀ : Matrix (Fin nx) (Fin nx) ℝ) (ss : List (Step nx ny)) (t : ℕ) (s : Step nx ny)
    (hs : ss[t]? = some s) : momentsAt m₀ P₀ ss (t + 1) = (s.F *ᵥ (momentsAt m₀ P₀ ss t).1 + s.c,
        s.F * (momentsAt m₀ P₀ ss t).2 * s.Fᵀ + s.cholQ * s.cholQᵀ) := by
  rw [momentsAt, hs]

theorem momentsAt_gram (m₀ : Fin nx → ℝ) (A₀ : Matrix (Fin nx) (Fin nx) ℝ) (ss : List (Step nx ny)) (t : ℕ) :
    IsGram (momentsAt m₀ (A₀ * A₀ᵀ) ss t).2 := by
  induction t with
  | zero => exact isGram_of A₀
  | succ t ih =>
    rw [momentsAt]
    cases ss[t]? with
    | none => exact ih
    | some s => exact pred_gram ih s

/-- **C143** (existence). Every model whose states have nonsingular covariances after time 0, and whose last step is not
observed, can be run backwards. -/
theorem exists_reversal (m₀ : Fin nx → ℝ) (A₀ : Matrix (Fin nx) (Fin nx) ℝ) (ss : List (Step nx ny))
    (hlast : ∀ s, ss[ss.length - 1]? = some s → ∀ i, s.y i = none)
    (hd : ∀ t < ss.length, (momentsAt m₀ (A₀ * A₀ᵀ) ss (t + 1)).2.det ≠ 0) :
    ∃ (m₀' : Fin nx → ℝ) (A₀' : Matrix (Fin nx) (Fin nx) ℝ) (ss' : List (Step nx ny)),
      ReversesLG (fun t => (momentsAt m₀ (A₀ * A₀ᵀ) ss t).1) (fun t => (momentsAt m₀ (A₀ * A₀ᵀ) ss t).2)
        m₀ A₀ ss m₀' A₀' ss' := by
  obtain ⟨M, hM⟩ : ∃ M, M = momentsAt m₀ (A₀ * A₀ᵀ) ss := ⟨_, rfl⟩
  have hg : ∀ t, IsGram (M t).2 := fun t => hM ▸ momentsAt_gram m₀ A₀ ss t
  have hs1 : ∀ t s, ss[t]? = some s → M (t + 1) = (s.F *ᵥ (M t).1 + s.c, s.F * (M t).2 * s.Fᵀ + s.cholQ * s.cholQᵀ) := by
    intro t s hs; rw [hM]; exact momentsAt_succ _ _ _ _ _ hs
  have key : ∀ t, ∃ (G : Matrix (Fin nx) (Fin nx) ℝ) (D : Matrix (Fin nx) (Fin nx) ℝ), ∀ s, ss[t]? = some s →
      (M t).2 = G * (M (t + 1)).2 * Gᵀ + D * Dᵀ ∧ G * (M (t + 1)).2 = (M t).2 * s.Fᵀ := by
    intro t
    cases hs : ss[t]? with
    | none => exact ⟨0, 0, by simp⟩
    | some s =>
      have ht : t < ss.length := (List.getElem?_eq_some_iff.1 hs).1
      have hdt : (innovCov (M t).2 s.F (s.cholQ * s.cholQᵀ)).det ≠ 0 := by
        have := hd t ht
        rw [← hM, hs1 t s hs] at this
        exact this
      have hu : IsUnit (innovCov (M t).2 s.F (s.cholQ * s.cholQᵀ)).det := isUnit_iff_ne_zero.2 hdt
      obtain ⟨D, hD⟩ := (condCov_gram (hg t) (isGram_of s.cholQ) hdt).exists_sqrt
      have hS : (innovCov (M t).2 s.F (s.cholQ * s.cholQᵀ))ᵀ = innovCov (M t).2 s.F (s.cholQ * s.cholQᵀ) :=
        (innovCov_gram (hg t) (isGram_of s.cholQ)).symm
      have hPs : ((M t).2)ᵀ = (M t).2 := (hg t).symm
      refine ⟨(M t).2 * s.Fᵀ * (innovCov (M t).2 s.F (s.cholQ * s.cholQᵀ))⁻¹, D, ?_⟩
      intro s₁ hs₁
      obtain rfl : s = s₁ := Option.some.inj hs₁
      have e : (M (t + 1)).2 = innovCov (M t).2 s.F (s.cholQ * s.cholQᵀ) := by rw [hs1 t s hs]; rfl
      have e2 : (M t).2 * s.Fᵀ * (innovCov (M t).2 s.F (s.cholQ * s.cholQᵀ))⁻¹ * (M (t + 1)).2 = (M t).2 * s.Fᵀ := by
        rw [e, Matrix.mul_assoc, Matrix.nonsing_inv_mul _ hu, Matrix.mul_one]
      refine ⟨?_, e2⟩
      rw [e2, hD, condCov, Matrix.transpose_mul, Matrix.transpose_mul, Matrix.transpose_transpose, hPs,
        Matrix.transpose_nonsing_inv, hS]
      simp only [Matrix.mul_assoc]
      abel
  choose G D hGD using key
  obtain ⟨A', hA'⟩ := (hg ss.length).exists_sqrt
  let σ : ℕ → Step nx ny := fun t => ss.getD t ⟨0, 0, 0, 0, 0, 0, fun _ => none⟩
  let τ : ℕ → Step nx ny := fun i => ⟨G (ss.length - 1 - i),
    (M (ss.length - 1 - i)).1 - G (ss.length - 1 - i) *ᵥ (M (ss.length - 1 - i + 1)).1, D (ss.length - 1 - i),
    (σ (ss.length - 2 - i)).H, (σ (ss.length - 2 - i)).d, (σ (ss.length - 2 - i)).cholR,
    if i + 1 < ss.length then (σ (ss.length - 2 - i)).y else fun _ => none⟩
  have hτ : ∀ i s', ((List.range ss.length).map τ)[i]? = some s' → i < ss.length ∧ s' = τ i := by
    intro i s' h
    have hi : i < ss.length := by simpa using (List.getElem?_eq_some_iff.1 h).1
    rw [List.getElem?_map, List.getElem?_range hi] at h
    exact ⟨hi, (Option.some.inj h).symm⟩
  refine ⟨(M ss.length).1, A', (List.range ss.length).map τ, ?_⟩
  rw [← hM]
  refine ⟨by simp, ⟨by rw [hM]; rfl, by rw [hM]; rfl⟩, ⟨rfl, hA'⟩, fun t s hs => ?_, fun t ht s' hs' => ?_,
    fun t s s' hs hs' => ?_, fun t ht s s' hs hs' x => ?_, hlast, fun s' hs' i => ?_⟩
  · rw [hs1 t s hs]; exact ⟨rfl, rfl⟩
  · obtain ⟨hi, rfl⟩ := hτ _ _ hs'
    have e : ss.length - 1 - (ss.length - 1 - t) = t := by omega
    obtain ⟨s, hs⟩ : ∃ s, ss[t]? = some s := ⟨_, List.getElem?_eq_getElem ht⟩
    simp only [τ, e]
    exact ⟨by abel, (hGD t s hs).1⟩
  · obtain ⟨hi, rfl⟩ := hτ _ _ hs'
    have ht : t < ss.length := (List.getElem?_eq_some_iff.1 hs).1
    have e : ss.length - 1 - (ss.length - 1 - t) = t := by omega
    simp only [τ, e]
    exact (hGD t s hs).2
  · obtain ⟨hi, rfl⟩ := hτ _ _ hs'
    have e : ss.length - 2 - (ss.length - 2 - t) = t := by omega
    have e' : ss.length - 2 - t + 1 < ss.length := by omega
    have eσ : σ t = s := by simp [σ, List.getD_eq_getElem?_getD, hs]
    simp only [τ, e, if_pos e', eσ]
    rfl
  · obtain ⟨hi, rfl⟩ := hτ _ _ hs'
    have e' : ¬ ss.length - 1 + 1 < ss.length := by omega
    simp only [τ, if_neg e']

/-- Non-vacuity: a stationary autoregression with two observations and then a step without one. Run backwards it is the same
autoregression with the observations in reverse order. -/
theorem exists_reversed : ∃ (cb cb' : Callbacks 1 1 ℕ) (m : ℕ → Fin 1 → ℝ) (P : ℕ → Matrix (Fin 1) (Fin 1) ℝ),
    ReversesLG m P (cb.getInit 0).1 (cb.getInit 0).2 ([1, 2, 3].map (stepOf cb))
      (cb'.getInit 0).1 (cb'.getInit 0).2 ([1, 2, 3].map (stepOf cb')) ∧
    (∀ c ∈ [cb, cb'], (∀ u, (stepOf c u).R.det ≠ 0) ∧ IsLower (c.getInit 0).2 ∧ (∀ i, (c.getInit 0).2 i i ≠ 0) ∧
      ∀ (u : ℕ), ((stepOf c u).cholQ * ((stepOf c u).cholQ)ᵀ).det ≠ 0 ∧ ∀ L : Matrix (Fin 1) (Fin 1) ℝ,
        ((stepOf c u).F * (L * Lᵀ) * ((stepOf c u).F)ᵀ + (stepOf c u).cholQ * ((stepOf c u).cholQ)ᵀ).det ≠ 0) ∧
    (stepOf cb 1).y 0 = some 5 ∧ (stepOf cb 2).y 0 = some 7 ∧ (stepOf cb' 1).y 0 = some 7 ∧ (stepOf cb' 2).y 0 = some 5 := by
  let c : (ℕ → Option ℝ) → Callbacks 1 1 ℕ := fun y =>
    ⟨fun _ => (0, 1), fun _ => (Matrix.of fun _ _ => 3 / 5, 0, Matrix.of fun _ _ => 4 / 5), fun u => (1, 0, 1, fun _ => y u)⟩
  let y : ℕ → Option ℝ := fun u => if u = 1 then some 5 else if u = 2 then some 7 else none
  let y' : ℕ → Option ℝ := fun u => if u = 1 then some 7 else if u = 2 then some 5 else none
  have hm : ∀ (u : ℕ) (z : ℕ → Option ℝ), (0 : Fin 1 → ℝ) = (stepOf (c z) u).F *ᵥ 0 + (stepOf (c z) u).c := by
    intro u z; simp [stepOf, c]
  have hP : ∀ (u : ℕ) (z : ℕ → Option ℝ), (1 : Matrix (Fin 1) (Fin 1) ℝ) =
      (stepOf (c z) u).F * 1 * (stepOf (c z) u).Fᵀ + (stepOf (c z) u).cholQ * (stepOf (c z) u).cholQᵀ := by
    intro u z
    ext i j
    obtain rfl : i = j := Subsingleton.elim i j
    simp [stepOf, c, Matrix.mul_apply]
    norm_num
  have hmem : ∀ (z : ℕ → Option ℝ) (t : ℕ) s, ([1, 2, 3].map (stepOf (c z)))[t]? = some s → s = stepOf (c z) (t + 1) ∧ t < 3 := by
    intro z t s hs
    rcases t with _ | _ | _ | t
    · simp at hs; exact ⟨hs.symm, by omega⟩
    · simp at hs; exact ⟨hs.symm, by omega⟩
    · simp at hs; exact ⟨hs.symm, by omega⟩
    · simp at hs
  refine ⟨c y, c y', fun _ => 0, fun _ => 1, ⟨by simp, ⟨rfl, by simp [c]⟩, ⟨rfl, by simp [c]⟩, ?_, ?_, ?_, ?_, ?_, ?_⟩, ?_,
    by simp [stepOf, c, y], by simp [stepOf, c, y], by simp [stepOf, c, y'], by simp [stepOf, c, y']⟩
  · intro t s hs
    obtain ⟨rfl, -⟩ := hmem y t s hs
    exact ⟨hm _ _, hP _ _⟩
  · intro t _ s hs
    obtain ⟨rfl, -⟩ := hmem y' _ s hs
    exact ⟨hm _ _, hP _ _⟩
  · intro t s s' hs hs'
    obtain ⟨rfl, -⟩ := hmem y t s hs
    obtain ⟨rfl, -⟩ := hmem y' _ s' hs'
    ext i j
    simp [stepOf, c, Subsingleton.elim i j]
  · intro t ht s s' hs hs' x
    obtain ⟨rfl, -⟩ := hmem y t s hs
    obtain ⟨rfl, -⟩ := hmem y' _ s' hs'
    have : t = 0 ∨ t = 1 := by simp at ht; omega
    have e : y' ((List.map (stepOf (c y)) [1, 2, 3]).length - 2 - t + 1) = y (t + 1) := by
      rcases this with rfl | rfl <;> simp [y, y']
    simp only [stepOf, c, e]
  · intro s hs i
    obtain ⟨rfl, -⟩ := hmem y _ s hs
    simp [stepOf, c, y]
  · intro s hs i
    obtain ⟨rfl, -⟩ := hmem y' _ s hs
    simp [stepOf, c, y']
  · have hall : ∀ z : ℕ → Option ℝ, (∀ u, (stepOf (c z) u).R.det ≠ 0) ∧ IsLower ((c z).getInit 0).2 ∧
        (∀ i, ((c z).getInit 0).2 i i ≠ 0) ∧ ∀ (u : ℕ), ((stepOf (c z) u).cholQ * ((stepOf (c z) u).cholQ)ᵀ).det ≠ 0 ∧
        ∀ L : Matrix (Fin 1) (Fin 1) ℝ, ((stepOf (c z) u).F * (L * Lᵀ) * ((stepOf (c z) u).F)ᵀ +
          (stepOf (c z) u).cholQ * ((stepOf (c z) u).cholQ)ᵀ).det ≠ 0 := by
      intro z
      refine ⟨fun u => obsR_det _ _ (by simp [stepOf, c]), ?_, by simp [c], fun u => ⟨?_, fun L => ?_⟩⟩
      · intro i j hij; exact absurd hij (by simp [Subsingleton.elim i j])
      · simp [stepOf, c, Matrix.det_unique, Matrix.mul_apply]
      · have : 0 ≤ L 0 0 * L 0 0 := mul_self_nonneg _
        have e : ((stepOf (c z) u).F * (L * Lᵀ) * ((stepOf (c z) u).F)ᵀ +
          (stepOf (c z) u).cholQ * ((stepOf (c z) u).cholQ)ᵀ).det = 9 / 25 * (L 0 0 * L 0 0) + 16 / 25 := by
          simp [stepOf, c, Matrix.det_unique, Matrix.mul_apply]
          ring
        rw [e]; positivity
    intro d hd
    simp only [List.mem_cons, List.not_mem_nil, or_false] at hd
    rcases hd with rfl | rfl
    · exact hall y
    · exact hall y'

end

end Cuthbert.Kalman
