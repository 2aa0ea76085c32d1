import Verif.Props.Subsystems
import Verif.Spec.Register

/-!
# A register carried along with the state (C138)

Filtering a model whose state is augmented by linear functions of the path; in particular fixed-point and fixed-lag
smoothing by the filter alone.
-/

namespace Cuthbert.Kalman
open MeasureTheory Matrix Cuthbert Cuthbert.Spec
open scoped ENNReal

noncomputable section

variable {nx ny k N : ℕ} {Inp InpJ K KJ : Type} {e : Fin nx ⊕ Fin k ≃ Fin N}

theorem gauss_select {ι ο κ : Type*} [Fintype ι] [Fintype ο] [Fintype κ] (e : ο → ι) (m : ι → ℝ) (L : Matrix ι κ ℝ)
    {f : (ο → ℝ) → ℝ≥0∞} (hf : Measurable f) :
    ∫⁻ x, f (x ∘ e) ∂gauss m L = ∫⁻ x, f x ∂gauss (m ∘ e) (L.submatrix e id) := by
  have hm : Measurable fun x : ι → ℝ => x ∘ e := measurable_pi_lambda _ fun i => measurable_pi_apply _
  rw [lintegral_gauss _ _ (f := fun x => f (x ∘ e)) (hf.comp hm), lintegral_gauss _ _ hf]
  rfl

theorem gauss_zero {ι : Type*} [Fintype ι] (m : ι → ℝ) {f : (ι → ℝ) → ℝ≥0∞} (hf : Measurable f) :
    ∫⁻ x, f x ∂gauss m (0 : Matrix ι (Fin 0) ℝ) = f m := by
  rw [lintegral_gauss _ _ hf]
  simp

/-- The law of a Gaussian part together with a part without noise. -/
theorem gauss_const {κ κJ : Type*} [Fintype κ] [Fintype κJ] {m : Fin nx → ℝ} {w : Fin k → ℝ}
    {mJ : Fin N → ℝ} {L : Matrix (Fin nx) κ ℝ} {LJ : Matrix (Fin N) κJ ℝ}
    (hm : mJ ∘ e = Sum.elim m w) (hL : (LJ * LJᵀ).submatrix e e = fromBlocks (L * Lᵀ) 0 0 0)
    {f : (Fin nx ⊕ Fin k → ℝ) → ℝ≥0∞} (hf : Measurable f) :
    ∫⁻ x, f (x ∘ e) ∂gauss mJ LJ = ∫⁻ x, f (Sum.elim x w) ∂gauss m L := by
  rw [gauss_join (L := L) (L' := (0 : Matrix (Fin k) (Fin 0) ℝ)) hm (by rw [hL]; simp) hf]
  refine lintegral_congr fun x => ?_
  exact gauss_zero w (f := fun v => f (Sum.elim x v))
    (hf.comp (measurable_sumElim.comp (measurable_const.prodMk measurable_id)))

/-! ## Path expectations -/

variable {s : Step nx ny} {j : Step N ny} {A : Matrix (Fin k) (Fin nx) ℝ} {B : Matrix (Fin k) (Fin k) ℝ}

theorem _root_.Cuthbert.Spec.StepRegister.lik_eq (h : StepRegister e A B s j) (z : Fin N → ℝ) :
    j.lik z = s.lik (z ∘ e ∘ Sum.inl) := by
  obtain ⟨F, c, Q, H, d, R, y⟩ := j
  obtain ⟨-, -, -, h1, h2, h3, h4⟩ := h
  dsimp only at h1 h2 h3 h4
  subst h2 h3 h4
  have hH : H *ᵥ z = s.H *ᵥ (z ∘ e ∘ Sum.inl) := by
    have := mulVec_comp H z e id
    rw [Function.comp_id] at this
    rw [this, h1, sum_eta (z ∘ e), fromCols_mulVec]
    simp [Function.comp_def]
  have hO : obsH s.y H *ᵥ z = obsH s.y s.H *ᵥ (z ∘ e ∘ Sum.inl) := by
    funext i
    exact congrFun hH i.1
  simp only [Step.lik, Step.R]
  rw [hO]

theorem _root_.Cuthbert.Spec.StepRegister.R_det (h : StepRegister e A B s j) (hR : s.R.det ≠ 0) : j.R.det ≠ 0 := by
  obtain ⟨F, c, Q, H, d, R, y⟩ := j
  obtain ⟨-, -, -, h1, h2, h3, h4⟩ := h
  dsimp only at h1 h2 h3 h4
  subst h2 h3 h4
  exact hR

theorem _root_.Cuthbert.Spec.StepRegister.mean (h : StepRegister e A B s j) (z : Fin N → ℝ) :
    (j.F *ᵥ z + j.c) ∘ e = Sum.elim (s.F *ᵥ (z ∘ e ∘ Sum.inl) + s.c) (A *ᵥ (z ∘ e ∘ Sum.inl) + B *ᵥ (z ∘ e ∘ Sum.inr)) := by
  have e1 : (j.F *ᵥ z + j.c) ∘ e = (j.F *ᵥ z) ∘ e + j.c ∘ e := rfl
  rw [e1, h.c, mulVec_comp j.F z e e, h.F, sum_eta (z ∘ e), fromBlocks_mulVec]
  funext i
  rcases i with i | i <;> simp [Function.comp_def]

theorem register_cons (A : ℕ → Matrix (Fin k) (Fin nx) ℝ) (B : ℕ → Matrix (Fin k) (Fin k) ℝ) (w : Fin k → ℝ) (x : Fin nx → ℝ)
    (p : ℕ → Fin nx → ℝ) (t : ℕ) : register A B w (pathCons x p) (t + 1) =
      register (fun t => A (t + 1)) (fun t => B (t + 1)) (A 0 *ᵥ x + B 0 *ᵥ w) p t := by
  induction t with
  | zero => rfl
  | succ t ih =>
    rw [register, ih]
    rfl

theorem measurable_register {Ω : Type*} [MeasurableSpace Ω] (A : ℕ → Matrix (Fin k) (Fin nx) ℝ)
    (B : ℕ → Matrix (Fin k) (Fin k) ℝ) {w : Ω → Fin k → ℝ} {p : Ω → ℕ → Fin nx → ℝ} (hw : Measurable w) (hp : Measurable p)
    (t : ℕ) : Measurable fun ω => register A B (w ω) (p ω) t := by
  induction t with
  | zero => exact hw
  | succ t ih =>
    exact ((measurable_mulVec (A t)).comp ((measurable_pi_apply t).comp hp)).add ((measurable_mulVec (B t)).comp ih)

/-- Path expectations of the augmented model. -/
theorem pathExp_register : ∀ (ss : List (Step nx ny)) (js : List (Step N ny)) (A : ℕ → Matrix (Fin k) (Fin nx) ℝ)
    (B : ℕ → Matrix (Fin k) (Fin k) ℝ) (_ : ss.length = js.length)
    (_ : ∀ (t : ℕ) s j, ss[t]? = some s → js[t]? = some j → StepRegister e (A t) (B t) s j)
    (f : (ℕ → Fin nx ⊕ Fin k → ℝ) → ℝ≥0∞) (_ : Measurable f) (z : Fin N → ℝ),
    pathExp js (fun p => f fun t => p t ∘ e) z =
      pathExp ss (fun p => f fun t => Sum.elim (p t) (register A B (z ∘ e ∘ Sum.inr) p (min t ss.length))) (z ∘ e ∘ Sum.inl)
  | [], [], A, B, _, _, f, _, z => by
    simp only [pathExp, List.length_nil, Nat.min_zero, register]
    congr 1
    funext t
    exact sum_eta (z ∘ e)
  | [], _ :: _, _, _, hl, _, _, _, _ => by cases hl
  | _ :: _, [], _, _, hl, _, _, _, _ => by cases hl
  | s :: ss, j :: js, A, B, hl, h, f, hf, z => by
    have h0 := h 0 s j rfl rfl
    have hf' : Measurable fun p : ℕ → Fin nx ⊕ Fin k → ℝ => f (pathCons (z ∘ e) p) :=
      hf.comp (measurable_pathCons measurable_const measurable_id)
    have ih := pathExp_register ss js (fun t => A (t + 1)) (fun t => B (t + 1)) (by simpa using hl)
      (fun t a b ha hb => h (t + 1) a b ha hb) _ hf'
    have hl1 : Measurable fun v : Fin nx ⊕ Fin k → ℝ => v ∘ Sum.inl := measurable_pi_lambda _ fun i => measurable_pi_apply _
    have hl2 : Measurable fun v : Fin nx ⊕ Fin k → ℝ => v ∘ Sum.inr := measurable_pi_lambda _ fun i => measurable_pi_apply _
    have hin : Measurable fun q : (Fin nx ⊕ Fin k → ℝ) × (ℕ → Fin nx → ℝ) => f (pathCons (z ∘ e) fun t =>
        Sum.elim (q.2 t) (register (fun t => A (t + 1)) (fun t => B (t + 1)) (q.1 ∘ Sum.inr) q.2 (min t ss.length))) := by
      refine hf'.comp (measurable_pi_lambda _ fun t => ?_)
      exact measurable_sumElim.comp (((measurable_pi_apply t).comp measurable_snd).prodMk
        (measurable_register _ _ (hl2.comp measurable_fst) measurable_snd _))
    have hg : Measurable fun v : Fin nx ⊕ Fin k → ℝ => s.lik (v ∘ Sum.inl) * pathExp ss (fun p => f (pathCons (z ∘ e) fun t =>
        Sum.elim (p t) (register (fun t => A (t + 1)) (fun t => B (t + 1)) (v ∘ Sum.inr) p (min t ss.length)))) (v ∘ Sum.inl) :=
      (s.measurable_lik.comp hl1).mul (measurable_pathExp ss hin hl1)
    have key := gauss_const (L := s.cholQ) (h0.mean z) h0.Q hg
    simp only [pathExp]
    refine Eq.trans (lintegral_congr fun x' => ?_) (key.trans (lintegral_congr fun x' => ?_))
    · have e1 : (fun p : ℕ → Fin N → ℝ => f fun t => pathCons z p t ∘ e) =
          fun p => f (pathCons (z ∘ e) fun t => p t ∘ e) := by
        funext p
        congr 1; funext t; cases t <;> rfl
      rw [e1, ih x', h0.lik_eq]
      rfl
    · simp only [Sum.elim_comp_inl, Sum.elim_comp_inr]
      congr 3
      funext p
      congr 1; funext t
      cases t with
      | zero => exact sum_eta (z ∘ e)
      | succ t =>
        simp only [List.length_cons, Nat.add_min_add_right, register_cons]
        rfl

/-! ## Filter and smoother -/

/-- The callbacks `cbJ` describe the model of `cb` with a register that holds `w` at the start. -/
structure WithRegister (e : Fin nx ⊕ Fin k ≃ Fin N) (A : ℕ → Matrix (Fin k) (Fin nx) ℝ) (B : ℕ → Matrix (Fin k) (Fin k) ℝ)
    (w : Fin k → ℝ) (cb : Callbacks nx ny Inp) (cbJ : Callbacks N ny InpJ) (u₀ : Inp) (us : List Inp) (v₀ : InpJ)
    (vs : List InpJ) : Prop where
  m0 : (cbJ.getInit v₀).1 ∘ e = Sum.elim (cb.getInit u₀).1 w
  P0 : ((cbJ.getInit v₀).2 * ((cbJ.getInit v₀).2)ᵀ).submatrix e e =
    fromBlocks ((cb.getInit u₀).2 * ((cb.getInit u₀).2)ᵀ) 0 0 0
  len : us.length = vs.length
  step : ∀ (t : ℕ) u v, us[t]? = some u → vs[t]? = some v → StepRegister e (A t) (B t) (stepOf cb u) (stepOf cbJ v)

variable {cb : Callbacks nx ny Inp} {cbJ : Callbacks N ny InpJ} {u₀ : Inp} {us : List Inp}
  {v₀ : InpJ} {vs : List InpJ} {w : Fin k → ℝ} {A : ℕ → Matrix (Fin k) (Fin nx) ℝ} {B : ℕ → Matrix (Fin k) (Fin k) ℝ}

theorem WithRegister.take (h : WithRegister e A B w cb cbJ u₀ us v₀ vs) (t : ℕ) :
    WithRegister e A B w cb cbJ u₀ (us.take t) v₀ (vs.take t) where
  m0 := h.m0
  P0 := h.P0
  len := by simp [h.len]
  step r u v h1 h2 := by
    by_cases hr : r < t
    · rw [List.getElem?_take_of_lt hr] at h1 h2
      exact h.step r u v h1 h2
    · rw [List.getElem?_take, if_neg hr] at h1; cases h1

theorem WithRegister.R (h : WithRegister e A B w cb cbJ u₀ us v₀ vs) (hR : ∀ u ∈ us, (stepOf cb u).R.det ≠ 0) :
    ∀ v ∈ vs, (stepOf cbJ v).R.det ≠ 0 := by
  intro v hv
  obtain ⟨t, ht, rfl⟩ := List.mem_iff_getElem.1 hv
  have h1 : t < us.length := by rw [h.len]; exact ht
  exact (h.step t _ _ (List.getElem?_eq_getElem h1) (List.getElem?_eq_getElem ht)).R_det (hR _ (List.getElem_mem h1))

theorem WithRegister.jointExp (h : WithRegister e A B w cb cbJ u₀ us v₀ vs) {φ : (Fin nx ⊕ Fin k → ℝ) → ℝ≥0∞}
    (hφ : Measurable φ) {t : ℕ} (ht : t ≤ us.length) :
    jointExp (cbJ.getInit v₀).1 (cbJ.getInit v₀).2 (vs.map (stepOf cbJ)) (fun p => φ (p t ∘ e)) =
      jointExp (cb.getInit u₀).1 (cb.getInit u₀).2 (us.map (stepOf cb)) fun p => φ (Sum.elim (p t) (register A B w p t)) := by
  have key := pathExp_register (e := e) (us.map (stepOf cb)) (vs.map (stepOf cbJ)) A B (by simp [h.len])
    (fun t s j h1 h2 => by
      rw [List.getElem?_map] at h1 h2
      obtain ⟨u, hu, rfl⟩ := Option.map_eq_some_iff.1 h1
      obtain ⟨v, hv, rfl⟩ := Option.map_eq_some_iff.1 h2
      exact h.step t u v hu hv) (fun p => φ (p t)) (hφ.comp (measurable_pi_apply t))
  have hl1 : Measurable fun v : Fin nx ⊕ Fin k → ℝ => v ∘ Sum.inl := measurable_pi_lambda _ fun i => measurable_pi_apply _
  have hl2 : Measurable fun v : Fin nx ⊕ Fin k → ℝ => v ∘ Sum.inr := measurable_pi_lambda _ fun i => measurable_pi_apply _
  simp only [List.length_map, min_eq_left ht] at key
  have hg : Measurable fun v : Fin nx ⊕ Fin k → ℝ => pathExp (us.map (stepOf cb))
      (fun p => φ (Sum.elim (p t) (register A B (v ∘ Sum.inr) p t))) (v ∘ Sum.inl) :=
    measurable_pathExp _ (f := fun q : (Fin nx ⊕ Fin k → ℝ) × (ℕ → Fin nx → ℝ) =>
      φ (Sum.elim (q.2 t) (register A B (q.1 ∘ Sum.inr) q.2 t)))
      (hφ.comp (measurable_sumElim.comp (((measurable_pi_apply t).comp measurable_snd).prodMk
        (measurable_register _ _ (hl2.comp measurable_fst) measurable_snd _)))) hl1
  rw [Cuthbert.jointExp, Cuthbert.jointExp]
  simp only [key]
  exact (gauss_const h.m0 h.P0 hg).trans (lintegral_congr fun x => by simp only [Sum.elim_comp_inl, Sum.elim_comp_inr])

/-- **C138** (Kalman filter with a register). The filter of the augmented model returns at each time `t` the posterior of the
state together with the content of the register, given the data up to `t`: the law of `(x_t, w_t)` weighted by the likelihood
of `y_1, …, y_t` under the original model is `exp(l)` times the Gaussian law returned. In the coordinates of the state it is
what the filter returns for the original model, with, where both are finite, the same log normalising constant. -/
theorem filter_register (h : WithRegister e A B w cb cbJ u₀ us v₀ vs) (qr qrJ : QR) (rng : Prng K) (rngJ : Prng KJ)
    (parallel parallelJ : Bool) (key : Option K) (keyJ : Option KJ) (hR : ∀ u ∈ us, (stepOf cb u).R.det ≠ 0) :
    ∃ (states : List (FilterState nx Inp)) (statesJ : List (FilterState N InpJ)),
      (filter rng (buildFilter qr cb) (u₀ :: us) parallel key).result = .ok states ∧
      (filter rngJ (buildFilter qrJ cbJ) (v₀ :: vs) parallelJ keyJ).result = .ok statesJ ∧
      states.length = us.length + 1 ∧ statesJ.length = us.length + 1 ∧
      ∀ t ≤ us.length, ∃ s sJ m mJ L LJ l, states[t]? = some s ∧ statesJ[t]? = some sJ ∧
        s.mean = some m ∧ sJ.mean = some mJ ∧ s.cholCov = some L ∧ sJ.cholCov = some LJ ∧
        (∀ φ : (Fin nx ⊕ Fin k → ℝ) → ℝ≥0∞, Measurable φ →
          Cuthbert.jointExp (cb.getInit u₀).1 (cb.getInit u₀).2 ((us.take t).map (stepOf cb))
              (fun p => φ (Sum.elim (p t) (register A B w p t))) =
            ENNReal.ofReal (Real.exp l) * ∫⁻ z, φ (z ∘ e) ∂gauss mJ LJ) ∧
        mJ ∘ e ∘ Sum.inl = m ∧ (LJ * LJᵀ).submatrix (e ∘ Sum.inl) (e ∘ Sum.inl) = L * Lᵀ ∧
        (IsLower (cbJ.getInit v₀).2 → ∀ l', sJ.logNormalizingConstant = some l' → l' = l) ∧
        (IsLower (cb.getInit u₀).2 → ∀ l', s.logNormalizingConstant = some l' → l' = l) := by
  obtain ⟨states, h1, h2, h3⟩ := kalman_filter_exact qr rng cb u₀ us parallel key hR
  obtain ⟨statesJ, h1J, h2J, h3J⟩ := kalman_filter_exact qrJ rngJ cbJ v₀ vs parallelJ keyJ (h.R hR)
  refine ⟨states, statesJ, h1, h1J, h2, by rw [h2J, h.len], fun t ht => ?_⟩
  obtain ⟨s, m, L, l, h4, h5, h6, h7, h8⟩ := h3 t ht
  obtain ⟨sJ, mJ, LJ, lJ, h4J, h5J, h6J, h7J, h8J⟩ := h3J t (by rw [← h.len]; exact ht)
  have hme : Measurable fun z : Fin N → ℝ => z ∘ e := measurable_pi_lambda _ fun i => measurable_pi_apply _
  have hl1 : Measurable fun v : Fin nx ⊕ Fin k → ℝ => v ∘ Sum.inl := measurable_pi_lambda _ fun i => measurable_pi_apply _
  have hlaw : ∀ φ : (Fin nx ⊕ Fin k → ℝ) → ℝ≥0∞, Measurable φ →
      Cuthbert.jointExp (cb.getInit u₀).1 (cb.getInit u₀).2 ((us.take t).map (stepOf cb))
          (fun p => φ (Sum.elim (p t) (register A B w p t))) =
        ENNReal.ofReal (Real.exp lJ) * ∫⁻ z, φ (z ∘ e) ∂gauss mJ LJ := fun φ hφ => by
    rw [← (h.take t).jointExp hφ (t := t) (by rw [List.length_take, min_eq_left ht])]
    exact h7J (fun z => φ (z ∘ e)) (hφ.comp hme)
  obtain ⟨r1, r2, r3⟩ := weighted_gauss_injective (m := mJ ∘ e ∘ Sum.inl) (m' := m) (L := LJ.submatrix (e ∘ Sum.inl) id) (M := L)
    (l := lJ) (l' := l) fun φ hφ => by
      rw [← h7 φ hφ, ← gauss_select (e ∘ Sum.inl) mJ LJ hφ]
      exact (hlaw (fun v => φ (v ∘ Sum.inl)) (hφ.comp hl1)).symm
  refine ⟨s, sJ, m, mJ, L, LJ, lJ, h4, h4J, h5, h5J, h6, h6J, hlaw, r2, ?_, fun i => (h8J i).1, fun i l' hl' => ?_⟩
  · rw [← gram_submatrix, r3]
  · rw [(h8 i).1 l' hl', r1]

/-- **C138** (smoothing by the filter). If the register holds at time `t` the state at time `r`, the filter of the augmented
model returns for the register at time `t` the mean and covariance that the smoother returns for the original model at time
`r` when it is given the data up to time `t`. -/
theorem smoother_by_register (h : WithRegister e A B w cb cbJ u₀ us v₀ vs) {r t : ℕ} {A' : Matrix (Fin k) (Fin nx) ℝ}
    (hr : r ≤ t) (ht1 : 1 ≤ t) (ht : t ≤ us.length)
    (hreg : ∀ p : ℕ → Fin nx → ℝ, register A B w p t = A' *ᵥ p r) (qr qrJ : QR) (rng rng' : Prng K) (rngJ : Prng KJ)
    (parallel parallel' parallelJ : Bool) (key key' : Option K) (keyJ : Option KJ) (opts : SmootherOpts nx Inp)
    (hR : ∀ u ∈ us, (stepOf cb u).R.det ≠ 0) {filterStates : List (FilterState nx Inp)} {statesJ : List (FilterState N InpJ)}
    (hf : (filter rng (buildFilter qr cb) (u₀ :: us.take t) parallel key).result = .ok filterStates)
    (hP : ∀ (r : ℕ) s L u, filterStates[r]? = some s → s.cholCov = some L → (us.take t)[r]? = some u →
      ((stepOf cb u).F * (L * Lᵀ) * ((stepOf cb u).F)ᵀ +
        (stepOf cb u).cholQ * ((stepOf cb u).cholQ)ᵀ).det ≠ 0)
    (hfJ : (filter rngJ (buildFilter qrJ cbJ) (v₀ :: vs) parallelJ keyJ).result = .ok statesJ) :
    ∃ states, (smoother rng' FilterState.modelInputs (fun u => .ok (opts.dummy u))
        (buildSmoother qr cb.getDynamics opts) filterStates none parallel' key').result = .ok states ∧
      ∃ s sJ m mJ L LJ, states[r]? = some s ∧ statesJ[t]? = some sJ ∧ s.mean = some m ∧ sJ.mean = some mJ ∧
        s.cholCov = some L ∧ sJ.cholCov = some LJ ∧ mJ ∘ e ∘ Sum.inr = A' *ᵥ m ∧
        (LJ * LJᵀ).submatrix (e ∘ Sum.inr) (e ∘ Sum.inr) = A' * (L * Lᵀ) * A'ᵀ := by
  have hlen : (us.take t).length = t := by rw [List.length_take, min_eq_left ht]
  obtain ⟨states, l, h1, h2, h3, -⟩ := kalman_smoother_exact qr rng rng' cb u₀ (us.take t)
    (fun h0 => by rw [h0] at hlen; simp at hlen; omega) parallel parallel' key key' opts
    (fun u hu => hR u (List.mem_of_mem_take hu)) filterStates hf hP none (.inl rfl)
  obtain ⟨s, m, L, h4, h5, h6, h7⟩ := h3 r (by rw [hlen]; exact hr)
  obtain ⟨F1, F2, -, a2, -, -, hall⟩ := filter_register h qr qrJ rng rngJ parallel parallelJ key keyJ hR
  rw [hfJ] at a2; cases a2
  obtain ⟨s₁, sJ, m₁, mJ, L₁, LJ, lJ, -, b1, -, b2, -, b3, b4, -⟩ := hall t ht
  have hl2 : Measurable fun v : Fin nx ⊕ Fin k → ℝ => v ∘ Sum.inr := measurable_pi_lambda _ fun i => measurable_pi_apply _
  obtain ⟨-, r2, r3⟩ := weighted_gauss_injective (m := mJ ∘ e ∘ Sum.inr) (m' := A' *ᵥ m) (L := LJ.submatrix (e ∘ Sum.inr) id)
    (M := A' * L) (l := lJ) (l' := l) fun φ hφ => by
      have e1 := b4 (fun v => φ (v ∘ Sum.inr)) (hφ.comp hl2)
      simp only [Sum.elim_comp_inr, hreg] at e1
      have e2 := h7 (fun x => φ (A' *ᵥ x)) (hφ.comp (measurable_mulVec A'))
      rw [← gauss_select (e ∘ Sum.inr) mJ LJ hφ]
      refine e1.symm.trans (e2.trans ?_)
      rw [lintegral_gauss _ _ (f := fun x => φ (A' *ᵥ x)) (hφ.comp (measurable_mulVec A')), lintegral_gauss _ _ hφ]
      simp only [mulVec_add, mulVec_mulVec]
  refine ⟨states, h1, s, sJ, m, mJ, L, LJ, h4, b1, h5, b2, h6, b3, r2, ?_⟩
  rw [← gram_submatrix, r3, transpose_mul]
  simp only [Matrix.mul_assoc]

/-- A register that stores the state at time `r` and keeps it (fixed-point smoothing). -/
theorem register_store (r : ℕ) (w : Fin nx → ℝ) (p : ℕ → Fin nx → ℝ) {t : ℕ} (ht : r < t) :
    register (fun n => if n = r then 1 else 0) (fun n => if n = r then 0 else 1) w p t = p r := by
  induction t with
  | zero => omega
  | succ t ih =>
    rw [register]
    by_cases h : t = r
    · simp [h]
    · rw [ih (by omega)]
      simp [h]

/-- A register that always stores the state (smoothing with lag one). -/
theorem register_lag (w : Fin nx → ℝ) (p : ℕ → Fin nx → ℝ) (t : ℕ) :
    register (fun _ => 1) (fun _ => 0) w p (t + 1) = p t := by
  simp [register]

/-- A register that adds up the states. -/
theorem register_sum (p : ℕ → Fin nx → ℝ) (t : ℕ) :
    register (fun _ => 1) (fun _ => 1) 0 p t = ∑ n ∈ Finset.range t, p n := by
  induction t with
  | zero => simp [register]
  | succ t ih => rw [Finset.sum_range_succ, register, ih]; simp [add_comm]

/-- Non-vacuity: any model can be given a register that starts at `w`; the inputs are numbered to tell the time. -/
theorem exists_register (cb : Callbacks nx ny Inp) (u₀ : Inp) (us : List Inp) (w : Fin k → ℝ)
    (A : ℕ → Matrix (Fin k) (Fin nx) ℝ) (B : ℕ → Matrix (Fin k) (Fin k) ℝ) :
    ∃ cbJ : Callbacks (nx + k) ny (Inp × ℕ),
      WithRegister finSumFinEquiv A B w cb cbJ u₀ us (u₀, 0) us.zipIdx := by
  let S : ∀ {a b c d : ℕ}, Matrix (Fin a ⊕ Fin c) (Fin b ⊕ Fin d) ℝ → Matrix (Fin (a + c)) (Fin (b + d)) ℝ :=
    fun M => M.submatrix finSumFinEquiv.symm finSumFinEquiv.symm
  have hS : ∀ {a c : ℕ} (L : Matrix (Fin a) (Fin a) ℝ),
      (S (fromBlocks L 0 0 (0 : Matrix (Fin c) (Fin c) ℝ)) * (S (fromBlocks L 0 0 (0 : Matrix (Fin c) (Fin c) ℝ)))ᵀ).submatrix
        finSumFinEquiv finSumFinEquiv = fromBlocks (L * Lᵀ) 0 0 0 := by
    intro a c L
    simp only [S, transpose_submatrix, submatrix_mul_equiv, submatrix_submatrix, gram_fromBlocks]
    simp
  refine ⟨⟨fun u => (Sum.elim (cb.getInit u.1).1 w ∘ finSumFinEquiv.symm, S (fromBlocks (cb.getInit u.1).2 0 0 0)),
    fun u => (S (fromBlocks (cb.getDynamics u.1).1 0 (A u.2) (B u.2)),
      Sum.elim (cb.getDynamics u.1).2.1 0 ∘ finSumFinEquiv.symm, S (fromBlocks (cb.getDynamics u.1).2.2 0 0 0)),
    fun u => ((fromCols (cb.getObservation u.1).1 0).submatrix id finSumFinEquiv.symm,
      (cb.getObservation u.1).2.1, (cb.getObservation u.1).2.2.1, (cb.getObservation u.1).2.2.2)⟩, ?_, ?_, ?_, ?_⟩
  · funext i; simp
  · exact hS _
  · simp
  · intro t u v h1 h2
    rw [List.getElem?_zipIdx, h1] at h2
    simp only [Option.map_some, Option.some.injEq] at h2
    subst h2
    refine ⟨?_, ?_, hS _, ?_, rfl, rfl, rfl⟩
    · simp [stepOf, S]
    · funext i; simp [stepOf]
    · simp [stepOf]

/-- Non-vacuity of `smoother_by_register`: every model with nonsingular process and observation noise (`hR`, `hQ`) has an
augmented model whose filter smooths the state at any time `r` from the data up to any later time `t`; the other hypotheses of
the theorem hold. -/
theorem exists_smoother_by_register (cb : Callbacks nx ny Inp) (u₀ : Inp) (us : List Inp) (qr : QR) (rng : Prng K)
    (parallel : Bool) (key : Option K) (hR : ∀ u ∈ us, (stepOf cb u).R.det ≠ 0)
    (hQ : ∀ u ∈ us, ((stepOf cb u).cholQ * ((stepOf cb u).cholQ)ᵀ).det ≠ 0) {r t : ℕ} (hr : r < t) :
    ∃ (A B : ℕ → Matrix (Fin nx) (Fin nx) ℝ) (cbJ : Callbacks (nx + nx) ny (Inp × ℕ)) (filterStates : List (FilterState nx Inp)),
      WithRegister finSumFinEquiv A B 0 cb cbJ u₀ us (u₀, 0) us.zipIdx ∧
      (∀ p : ℕ → Fin nx → ℝ, register A B 0 p t = (1 : Matrix (Fin nx) (Fin nx) ℝ) *ᵥ p r) ∧
      (filter rng (buildFilter qr cb) (u₀ :: us.take t) parallel key).result = .ok filterStates ∧
      ∀ (r : ℕ) s L u, filterStates[r]? = some s → s.cholCov = some L → (us.take t)[r]? = some u →
        ((stepOf cb u).F * (L * Lᵀ) * ((stepOf cb u).F)ᵀ + (stepOf cb u).cholQ * ((stepOf cb u).cholQ)ᵀ).det ≠ 0 := by
  obtain ⟨cbJ, h⟩ := exists_register cb u₀ us (0 : Fin nx → ℝ) (fun n => if n = r then 1 else 0) fun n => if n = r then 0 else 1
  obtain ⟨states, h1, -⟩ := kalman_filter_exact qr rng cb u₀ (us.take t) parallel key
    fun u hu => hR u (List.mem_of_mem_take hu)
  refine ⟨_, _, cbJ, states, h, fun p => by rw [register_store r 0 p hr, one_mulVec], h1, fun i s L u _ _ hu => ?_⟩
  rw [add_comm]
  exact (isGram_of _).det_add_ne_zero (hQ u (List.mem_of_mem_take (List.mem_of_getElem? hu))) ((isGram_of _).conj _)

end

end Cuthbert.Kalman
