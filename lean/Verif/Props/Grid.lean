import Verif.Lemmas.GaussInj
import Verif.Lemmas.KalmanReindex
import Verif.Props.KalmanSmoother
import Verif.Props.Transform
import Verif.Spec.Grid

/-!
# Subdividing the steps of a linear-Gaussian model (C82)
-/

namespace Cuthbert.Kalman
open MeasureTheory Matrix Cuthbert Cuthbert.Spec
open scoped ENNReal

noncomputable section

variable {nx ny ny' : ℕ} {Inp Inp' K K' : Type}

theorem pathExp_append_tail (b ss : List (Step nx ny)) : ∀ (h : (ℕ → Fin nx → ℝ) → ℝ≥0∞) (x : Fin nx → ℝ),
    pathExp (b ++ ss) (fun p => h fun i => p (i + b.length)) x = pathExp b (fun p => pathExp ss h (p b.length)) x := by
  induction b with
  | nil => intro h x; rfl
  | cons s b ih =>
    intro h x
    simp only [List.cons_append, pathExp]
    refine lintegral_congr fun x' => ?_
    congr 1
    exact ih h x'

theorem fineTime_cons_succ {α : Type*} (b : List α) (bs : List (List α)) (t : ℕ) :
    fineTime (b :: bs) (t + 1) = fineTime bs t + b.length := by
  simp [fineTime, Nat.add_comm]

theorem pathExp_grid : ∀ (bs : List (List (Step nx ny))) (ss : List (Step nx ny')), List.Forall₂ Amounts bs ss →
    ∀ (g : (ℕ → Fin nx → ℝ) → ℝ≥0∞), Measurable g → ∀ x : Fin nx → ℝ,
      pathExp bs.flatten (fun p => g fun t => p (fineTime bs t)) x = pathExp ss g x
  | [], _, .nil, g, _, x => by simp [pathExp]
  | b :: bs, s :: ss, .cons h hs, g, hg, x => by
    have hτ : Measurable fun q : ℕ → Fin nx → ℝ => fun t => q (fineTime bs t) :=
      measurable_pi_lambda _ fun t => measurable_pi_apply _
    have hg' : Measurable fun q : ℕ → Fin nx → ℝ => g (pathCons x q) :=
      hg.comp (measurable_pathCons measurable_const measurable_id)
    have hh : Measurable fun q : ℕ → Fin nx → ℝ => g (pathCons x fun t => q (fineTime bs t)) := hg'.comp hτ
    have e : pathExp (b :: bs).flatten (fun p => g fun t => p (fineTime (b :: bs) t)) x =
        pathExp (b ++ bs.flatten)
          (fun p => (fun q : ℕ → Fin nx → ℝ => g (pathCons x fun t => q (fineTime bs t))) fun i => p (i + b.length)) x := by
      rw [List.flatten_cons]
      refine pathExp_congr_head _ _ _ _ fun p hp => ?_
      dsimp only
      congr 1
      funext t
      cases t with
      | zero => simp [fineTime, pathCons, hp]
      | succ t => rw [fineTime_cons_succ]; rfl
    rw [e, pathExp_append_tail b bs.flatten fun q => g (pathCons x fun t => q (fineTime bs t)), h _ (measurable_pathExp' _ hh), pathExp, pathExp]
    refine lintegral_congr fun x' => ?_
    congr 1
    exact pathExp_grid bs ss hs (fun q => g (pathCons x q)) hg' x'

/-- The inputs of a fine grid in blocks, each of which amounts to a step of the coarse grid. -/
structure Subdivides (cb : Callbacks nx ny Inp) (cb' : Callbacks nx ny' Inp') (u₀ : Inp) (blocks : List (List Inp))
    (u₀' : Inp') (us' : List Inp') : Prop where
  m0 : (cb'.getInit u₀').1 = (cb.getInit u₀).1
  P0 : (cb'.getInit u₀').2 * ((cb'.getInit u₀').2)ᵀ = (cb.getInit u₀).2 * ((cb.getInit u₀).2)ᵀ
  step : List.Forall₂ (fun b u' => Amounts (b.map (stepOf cb)) (stepOf cb' u')) blocks us'

variable {cb : Callbacks nx ny Inp} {cb' : Callbacks nx ny' Inp'} {u₀ : Inp} {blocks : List (List Inp)} {u₀' : Inp'}
  {us' : List Inp'}

theorem Subdivides.take (h : Subdivides cb cb' u₀ blocks u₀' us') (t : ℕ) :
    Subdivides cb cb' u₀ (blocks.take t) u₀' (us'.take t) :=
  ⟨h.m0, h.P0, List.forall₂_take t h.step⟩

theorem fineTime_map {α β : Type*} (f : α → β) (blocks : List (List α)) (t : ℕ) :
    fineTime (blocks.map (List.map f)) t = fineTime blocks t := by
  rw [fineTime, fineTime, ← List.map_take, ← List.map_flatten, List.length_map]

theorem Subdivides.jointExp (h : Subdivides cb cb' u₀ blocks u₀' us') {g : (ℕ → Fin nx → ℝ) → ℝ≥0∞}
    (hg : Measurable g) :
    jointExp (cb'.getInit u₀').1 (cb'.getInit u₀').2 (us'.map (stepOf cb')) g =
      jointExp (cb.getInit u₀).1 (cb.getInit u₀).2 (blocks.flatten.map (stepOf cb))
        (fun p => g fun t => p (fineTime blocks t)) := by
  have hs : List.Forall₂ Amounts (blocks.map (List.map (stepOf cb))) (us'.map (stepOf cb')) := by
    rw [List.forall₂_map_left_iff, List.forall₂_map_right_iff]; exact h.step
  have e := pathExp_grid _ _ hs g hg
  simp only [fineTime_map, ← List.map_flatten] at e
  rw [Cuthbert.jointExp, Cuthbert.jointExp, h.m0, gauss_eq_of_gram _ _ _ h.P0]
  exact lintegral_congr fun x => (e x).symm

theorem flatten_take {α : Type*} (blocks : List (List α)) (t : ℕ) :
    blocks.flatten.take (fineTime blocks t) = (blocks.take t).flatten := by
  conv_lhs => rw [← List.take_append_drop t blocks, List.flatten_append]
  rw [List.take_append_of_le_length (by
    rw [List.take_append_drop]; exact le_rfl), List.take_append_drop, fineTime, List.take_length]

theorem fineTime_le {α : Type*} (blocks : List (List α)) (t : ℕ) : fineTime blocks t ≤ blocks.flatten.length := by
  rw [fineTime, ← flatten_take]; exact List.length_take_le' ..

/-- **C82**, filter. If each step of a model amounts to several steps of another one, the filter returns for the coarse
model at each time the mean, covariance and log normalising constant that it returns for the fine model at the
corresponding time. -/
theorem filter_subdivided (h : Subdivides cb cb' u₀ blocks u₀' us') (qr qr' : QR) (rng : Prng K) (rng' : Prng K')
    (parallel parallel' : Bool) (key : Option K) (key' : Option K')
    (hR : ∀ u ∈ blocks.flatten, (stepOf cb u).R.det ≠ 0) (hR' : ∀ u ∈ us', (stepOf cb' u).R.det ≠ 0) :
    ∃ (states : List (FilterState nx Inp)) (states' : List (FilterState nx Inp')),
      (filter rng (buildFilter qr cb) (u₀ :: blocks.flatten) parallel key).result = .ok states ∧
      (filter rng' (buildFilter qr' cb') (u₀' :: us') parallel' key').result = .ok states' ∧
      ∀ t ≤ us'.length, ∃ s s' m L L', states[fineTime blocks t]? = some s ∧ states'[t]? = some s' ∧
        s.mean = some m ∧ s'.mean = some m ∧ s.cholCov = some L ∧ s'.cholCov = some L' ∧ L' * L'ᵀ = L * Lᵀ ∧
        (IsLower (cb.getInit u₀).2 → IsLower (cb'.getInit u₀').2 → ∀ l l', s.logNormalizingConstant = some l →
          s'.logNormalizingConstant = some l' → l' = l) := by
  obtain ⟨states, h1, h2, h3⟩ := kalman_filter_exact qr rng cb u₀ blocks.flatten parallel key hR
  obtain ⟨states', h1', h2', h3'⟩ := kalman_filter_exact qr' rng' cb' u₀' us' parallel' key' hR'
  refine ⟨states, states', h1, h1', fun t ht => ?_⟩
  obtain ⟨s, m, L, l, h4, h5, h6, h7, h8⟩ := h3 (fineTime blocks t) (fineTime_le blocks t)
  obtain ⟨s', m', L', l', h4', h5', h6', h7', h8'⟩ := h3' t ht
  obtain ⟨e1, e2, e3⟩ := weighted_gauss_injective (m := m') (m' := m) (L := L') (M := L) (l := l') (l' := l) fun φ hφ => by
    have e := (h.take t).jointExp (g := fun p => φ (p t)) (hφ.comp (measurable_pi_apply t))
    have hl : fineTime (blocks.take t) t = fineTime blocks t := by rw [fineTime, List.take_take, min_self, fineTime]
    dsimp only at e
    rw [← h7' φ hφ, ← h7 φ hφ, e, hl, flatten_take]
  subst e2
  refine ⟨s, s', m', L, L', h4, h4', h5, h5', h6, h6', e3, fun hl hl' v v' hv hv' => ?_⟩
  rw [(h8 hl).1 v hv, (h8' hl').1 v' hv', e1]

/-- **C82**, smoother. -/
theorem smoother_subdivided (h : Subdivides cb cb' u₀ blocks u₀' us') (hus : blocks.flatten ≠ []) (hus' : us' ≠ [])
    (qr qr' : QR) (rng rng₁ : Prng K) (rng' rng₁' : Prng K') (parallel parallel₁ parallel' parallel₁' : Bool)
    (key key₁ : Option K) (key' key₁' : Option K') (opts : SmootherOpts nx Inp) (opts' : SmootherOpts nx Inp')
    (hR : ∀ u ∈ blocks.flatten, (stepOf cb u).R.det ≠ 0) (hR' : ∀ u ∈ us', (stepOf cb' u).R.det ≠ 0)
    {filterStates : List (FilterState nx Inp)} {filterStates' : List (FilterState nx Inp')}
    (hf : (filter rng (buildFilter qr cb) (u₀ :: blocks.flatten) parallel key).result = .ok filterStates)
    (hf' : (filter rng' (buildFilter qr' cb') (u₀' :: us') parallel' key').result = .ok filterStates')
    (hP : ∀ (t : ℕ) s L u, filterStates[t]? = some s → s.cholCov = some L → blocks.flatten[t]? = some u →
      ((stepOf cb u).F * (L * Lᵀ) * ((stepOf cb u).F)ᵀ +
        (stepOf cb u).cholQ * ((stepOf cb u).cholQ)ᵀ).det ≠ 0)
    (hP' : ∀ (t : ℕ) s L u, filterStates'[t]? = some s → s.cholCov = some L → us'[t]? = some u →
      ((stepOf cb' u).F * (L * Lᵀ) * ((stepOf cb' u).F)ᵀ +
        (stepOf cb' u).cholQ * ((stepOf cb' u).cholQ)ᵀ).det ≠ 0) :
    ∃ (states : List (SmootherState nx Inp)) (states' : List (SmootherState nx Inp')),
      (smoother rng₁ FilterState.modelInputs (fun u => .ok (opts.dummy u))
        (buildSmoother qr cb.getDynamics opts) filterStates none parallel₁ key₁).result = .ok states ∧
      (smoother rng₁' FilterState.modelInputs (fun u => .ok (opts'.dummy u))
        (buildSmoother qr' cb'.getDynamics opts') filterStates' none parallel₁' key₁').result = .ok states' ∧
      ∀ t ≤ us'.length, ∃ s s' m L L', states[fineTime blocks t]? = some s ∧ states'[t]? = some s' ∧
        s.mean = some m ∧ s'.mean = some m ∧ s.cholCov = some L ∧ s'.cholCov = some L' ∧ L' * L'ᵀ = L * Lᵀ := by
  obtain ⟨states, l, h1, h2, h3, -⟩ := kalman_smoother_exact qr rng rng₁ cb u₀ blocks.flatten hus parallel parallel₁ key
    key₁ opts hR filterStates hf hP none (.inl rfl)
  obtain ⟨states', l', h1', h2', h3', -⟩ := kalman_smoother_exact qr' rng' rng₁' cb' u₀' us' hus' parallel' parallel₁'
    key' key₁' opts' hR' filterStates' hf' hP' none (.inl rfl)
  refine ⟨states, states', h1, h1', fun t ht => ?_⟩
  obtain ⟨s, m, L, h4, h5, h6, h7⟩ := h3 (fineTime blocks t) (fineTime_le blocks t)
  obtain ⟨s', m', L', h4', h5', h6', h7'⟩ := h3' t ht
  obtain ⟨-, e2, e3⟩ := weighted_gauss_injective (m := m') (m' := m) (L := L') (M := L) (l := l') (l' := l) fun φ hφ => by
    have e := h.jointExp (g := fun p => φ (p t)) (hφ.comp (measurable_pi_apply t))
    rw [← h7' φ hφ, ← h7 φ hφ, e]
  subst e2
  exact ⟨s, s', m', L, L', h4, h4', h5, h5', h6, h6', e3⟩

/-! ## Instances -/

/-- A step without an observation has likelihood one. -/
theorem lik_missing (s : Step nx ny) (h : ∀ i, s.y i = none) (x : Fin nx → ℝ) : s.lik x = 1 := by
  have : IsEmpty (Obs s.y) := ⟨fun i => by have := i.2; rw [h] at this; simp at this⟩
  rw [Step.lik, gaussLogDensity]
  simp [dotProduct, Matrix.det_isEmpty]

/-- An idle step (nothing moves, nothing is observed) amounts to no step. -/
theorem amounts_idle (s : Step nx ny') (hF : s.F = 1) (hc : s.c = 0) (hQ : s.cholQ = 0) (hy : ∀ i, s.y i = none) :
    Amounts ([] : List (Step nx ny)) s := by
  intro φ hφ x
  simp only [pathExp, lik_missing s hy, one_mul, hF, hc, hQ]
  rw [lintegral_gauss _ _ (by exact hφ)]
  simp [pathCons]

/-- Two transitions without an observation in between amount to the composed transition. -/
theorem amounts_compose (s₁ s₂ s : Step nx ny) (hy : ∀ i, s₁.y i = none) (hF : s.F = s₂.F * s₁.F)
    (hc : s.c = s₂.F *ᵥ s₁.c + s₂.c)
    (hQ : s.cholQ * s.cholQᵀ = s₂.F * (s₁.cholQ * s₁.cholQᵀ) * s₂.Fᵀ + s₂.cholQ * s₂.cholQᵀ)
    (hobs : (s.H, s.d, s.cholR, s.y) = (s₂.H, s₂.d, s₂.cholR, s₂.y)) : Amounts [s₁, s₂] s := by
  intro φ hφ x
  have hlik : s.lik = s₂.lik := by
    obtain ⟨F, c, cholQ, H, d, cholR, y⟩ := s
    obtain ⟨F', c', cholQ', H', d', cholR', y'⟩ := s₂
    simp only [Prod.mk.injEq] at hobs
    obtain ⟨rfl, rfl, rfl, rfl⟩ := hobs
    rfl
  have hm : Measurable fun x' => s₂.lik x' * φ x' := s₂.measurable_lik.mul hφ
  have e := gauss_predict (W := s.cholQ) (s₁.F *ᵥ x + s₁.c) s₁.cholQ s₂.F s₂.c s₂.cholQ hQ hm
  simp only [pathExp, lik_missing s₁ hy, one_mul, hlik]
  have hmean : s.F *ᵥ x + s.c = s₂.F *ᵥ (s₁.F *ᵥ x + s₁.c) + s₂.c := by
    rw [hF, hc, Matrix.mulVec_add, Matrix.mulVec_mulVec, add_assoc]
  rw [hmean]
  exact e

theorem gaussLogDensity_sum {ι ο : Type*} [Fintype ι] [DecidableEq ι] [Fintype ο] [DecidableEq ο] (m y : ι → ℝ)
    (m' y' : ο → ℝ) (S : Matrix ι ι ℝ) (S' : Matrix ο ο ℝ) (hS : S.det ≠ 0) (hS' : S'.det ≠ 0) :
    gaussLogDensity (Sum.elim m m') (fromBlocks S 0 0 S') (Sum.elim y y') =
      gaussLogDensity m S y + gaussLogDensity m' S' y' := by
  have hu : IsUnit S := (Matrix.isUnit_iff_isUnit_det _).2 (isUnit_iff_ne_zero.2 hS)
  have hu' : IsUnit S' := (Matrix.isUnit_iff_isUnit_det _).2 (isUnit_iff_ne_zero.2 hS')
  have hd : Sum.elim y y' - Sum.elim m m' = Sum.elim (y - m) (y' - m') := by
    funext i; cases i <;> rfl
  rw [gaussLogDensity, gaussLogDensity, gaussLogDensity, hd,
    Matrix.inv_fromBlocks_zero₂₁_of_isUnit_iff _ _ _ (iff_of_true hu hu'), Matrix.fromBlocks_mulVec,
    Matrix.det_fromBlocks_zero₂₁, Real.log_mul hS hS', Fintype.card_sum]
  simp only [Matrix.mul_zero, Matrix.zero_mul, neg_zero, Matrix.zero_mulVec, add_zero, zero_add,
    Sum.elim_comp_inl, Sum.elim_comp_inr, sumElim_dotProduct_sumElim]
  push_cast
  ring

/-- The observation with only the components in `A` present. -/
def keep (A : Fin ny → Bool) (y : Fin ny → Option ℝ) : Fin ny → Option ℝ := fun i => if A i then y i else none

/-- Components observed in the two parts. -/
def obsSplit (A : Fin ny → Bool) (y : Fin ny → Option ℝ) :
    Obs (keep A y) ⊕ Obs (keep (fun i => !A i) y) ≃ Obs y where
  toFun := Sum.elim (fun i => ⟨i.1, by
      have := i.2
      cases h : A i.1 <;> simp_all [keep]⟩)
    fun i => ⟨i.1, by
      have := i.2
      cases h : A i.1 <;> simp_all [keep]⟩
  invFun i := if h : A i.1 then .inl ⟨i.1, by simp [keep, h, i.2]⟩ else .inr ⟨i.1, by simp [keep, h, i.2]⟩
  left_inv := by
    rintro (⟨i, hi⟩ | ⟨i, hi⟩)
    · have h : A i = true := by cases h : A i <;> simp_all [keep]
      simp [h]
    · have h : A i = false := by cases h : A i <;> simp_all [keep]
      simp [h]
  right_inv i := by
    by_cases h : A i.1 <;> simp [h]

/-- Components observed at the same time, with noises that are independent of each other, may be given in two steps, the
second of which does not move the state. -/
theorem amounts_observations (A : Fin ny → Bool) (s : Step nx ny)
    (hA : ∀ i j, A i = true → A j = false → (s.cholR * s.cholRᵀ) i j = 0)
    (hR : (Step.R { s with y := keep A s.y }).det ≠ 0) (hR' : (Step.R { s with y := keep (fun i => !A i) s.y }).det ≠ 0) :
    Amounts [{ s with y := keep A s.y }, { s with F := 1, c := 0, cholQ := 0, y := keep (fun i => !A i) s.y }] s := by
  have key : ∀ x, s.lik x = Step.lik { s with y := keep A s.y } x *
      Step.lik { s with F := 1, c := 0, cholQ := 0, y := keep (fun i => !A i) s.y } x := by
    intro x
    rw [Step.lik, Step.lik, Step.lik, ← ENNReal.ofReal_mul (Real.exp_nonneg _), ← Real.exp_add]
    have e := gaussLogDensity_sum (obsH (keep A s.y) s.H *ᵥ x + obsV (keep A s.y) s.d) (obsY (keep A s.y))
      (obsH (keep (fun i => !A i) s.y) s.H *ᵥ x + obsV (keep (fun i => !A i) s.y) s.d)
      (obsY (keep (fun i => !A i) s.y)) _ _ hR hR'
    rw [← gaussLogDensity_reindex (obsSplit A s.y)]
    refine congrArg (fun r => ENNReal.ofReal (Real.exp r)) (Eq.trans ?_ e)
    have hT : ∀ i : Obs (keep A s.y), A i.1 = true := fun i => by
      have := i.2
      cases h : A i.1 <;> simp_all [keep]
    have hF : ∀ i : Obs (keep (fun i => !A i) s.y), A i.1 = false := fun i => by
      have := i.2
      cases h : A i.1 <;> simp_all [keep]
    congr 1
    · funext i; rcases i with i | i <;> rfl
    · ext i j
      rcases i with i | i <;> rcases j with j | j
      · rfl
      · exact hA _ _ (hT i) (hF j)
      · have h := hA _ _ (hT j) (hF i)
        have hsym : (s.cholR * s.cholRᵀ) i.1 j.1 = (s.cholR * s.cholRᵀ) j.1 i.1 := by
          conv_lhs => rw [← (isGram_of s.cholR).symm]
          rfl
        exact hsym.trans h
      · rfl
    · funext i
      rcases i with i | i
      · simp [obsY, obsSplit, keep, hT i]
      · simp [obsY, obsSplit, keep, hF i]
  intro φ hφ x
  simp only [pathExp]
  refine lintegral_congr fun x' => ?_
  rw [key, mul_assoc]
  congr 1
  rw [lintegral_gauss _ _ (by exact (Step.measurable_lik _).mul hφ)]
  simp [pathCons]

/-- Non-vacuity: a random walk with two observations per step. On the fine grid the first pair of observations is given
one by one, and the second transition is cut in two. -/
example : ∃ (cb : Callbacks 1 2 ℕ) (cb' : Callbacks 1 2 ℕ), Subdivides cb cb' 0 [[1, 2], [3, 4]] 0 [1, 2] ∧
    (∀ u ∈ [[1, 2], [3, 4]].flatten, (stepOf cb u).R.det ≠ 0) ∧ ∀ u ∈ [1, 2], (stepOf cb' u).R.det ≠ 0 := by
  let y : Fin 2 → Option ℝ := ![some 5, some 7]
  let A : Fin 2 → Bool := ![true, false]
  let cb : Callbacks 1 2 ℕ := ⟨fun _ => (0, 1), fun u => (1, 0, (if u = 1 then 1 else if u = 2 then 0 else (u : ℝ)) • 1),
    fun u => (!![1; 2], 0, 1, if u = 1 then keep A y else if u = 2 then keep (fun i => !A i) y else if u = 3 then
      fun _ => none else y)⟩
  let cb' : Callbacks 1 2 ℕ := ⟨fun _ => (0, 1), fun u => (1, 0, (if u = 1 then (1 : ℝ) else 5) • 1),
    fun _ => (!![1; 2], 0, 1, y)⟩
  have h1 : ∀ u, (stepOf cb u).R.det ≠ 0 := fun u => obsR_det _ _ (by simp [stepOf, cb])
  have h2 : ∀ u, (stepOf cb' u).R.det ≠ 0 := fun u => obsR_det _ _ (by simp [stepOf, cb'])
  refine ⟨cb, cb', ⟨rfl, rfl, .cons ?_ (.cons ?_ .nil)⟩, fun u _ => h1 u, fun u _ => h2 u⟩
  · have e1 : stepOf cb 1 = { stepOf cb' 1 with y := keep A y } := rfl
    have e2 : stepOf cb 2 =
        { stepOf cb' 1 with F := 1, c := 0, cholQ := 0, y := keep (fun i => !A i) y } := by
      simp [stepOf, cb, cb']
    have := amounts_observations A (stepOf cb' 1) (fun i j hi hj => by
      have : i ≠ j := by rintro rfl; rw [hi] at hj; cases hj
      simp [stepOf, cb', this]) (obsR_det _ _ (by simp [stepOf, cb'])) (obsR_det _ _ (by simp [stepOf, cb']))
    rw [List.map_cons, List.map_cons, List.map_nil, e1, e2]
    exact this
  · refine amounts_compose _ _ _ (fun i => rfl) ?_ ?_ ?_ rfl
    · simp [stepOf, cb, cb']
    · simp [stepOf, cb, cb']
    · ext i j
      fin_cases i; fin_cases j
      norm_num [stepOf, cb, cb']

end

end Cuthbert.Kalman
