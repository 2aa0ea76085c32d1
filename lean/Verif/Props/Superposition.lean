import Verif.Lemmas.Relational
import Verif.Model.Kalman

/-!
# The Kalman filter and smoother are linear in the data (C86)

The means are linear in the initial mean, the offsets of the dynamics and of the observations and the observed
values together; the square roots of the covariances, the gains and the conditional square roots depend on none
of them, only on which values are missing.
-/

namespace Cuthbert.Kalman
open Matrix Cuthbert

noncomputable section

variable {nx ny : ℕ} {Inp K : Type}

/-- Combination of two observed values. -/
def combineObs (α β : ℝ) : Option ℝ → Option ℝ → Option ℝ
  | some a, some b => some (α * a + β * b)
  | _, _ => none

/-- The model `cb` combines the initial means, the offsets and the observed values of `cb₁` and `cb₂` linearly,
with weights `α` and `β`; the matrices of the three models and their missing values agree. -/
structure Superposes (α β : ℝ) (cb₁ cb₂ cb : Callbacks nx ny Inp) : Prop where
  m0 : ∀ u, (cb.getInit u).1 = α • (cb₁.getInit u).1 + β • (cb₂.getInit u).1
  P0 : ∀ u, (cb₁.getInit u).2 = (cb.getInit u).2 ∧ (cb₂.getInit u).2 = (cb.getInit u).2
  F : ∀ u, (cb₁.getDynamics u).1 = (cb.getDynamics u).1 ∧ (cb₂.getDynamics u).1 = (cb.getDynamics u).1
  c : ∀ u, (cb.getDynamics u).2.1 = α • (cb₁.getDynamics u).2.1 + β • (cb₂.getDynamics u).2.1
  Q : ∀ u, (cb₁.getDynamics u).2.2 = (cb.getDynamics u).2.2 ∧ (cb₂.getDynamics u).2.2 = (cb.getDynamics u).2.2
  H : ∀ u, (cb₁.getObservation u).1 = (cb.getObservation u).1 ∧ (cb₂.getObservation u).1 = (cb.getObservation u).1
  d : ∀ u, (cb.getObservation u).2.1 = α • (cb₁.getObservation u).2.1 + β • (cb₂.getObservation u).2.1
  R : ∀ u, (cb₁.getObservation u).2.2.1 = (cb.getObservation u).2.2.1 ∧
    (cb₂.getObservation u).2.2.1 = (cb.getObservation u).2.2.1
  missing : ∀ u i, ((cb₁.getObservation u).2.2.2 i).isNone = ((cb₂.getObservation u).2.2.2 i).isNone
  y : ∀ u i, (cb.getObservation u).2.2.2 i =
    combineObs α β ((cb₁.getObservation u).2.2.2 i) ((cb₂.getObservation u).2.2.2 i)

/-- Relation of the elements of the scan. -/
structure SupElem (α β : ℝ) (e₁ e₂ e : FilterElem nx) : Prop where
  A₁ : e₁.A = e.A
  A₂ : e₂.A = e.A
  b : e.b = α • e₁.b + β • e₂.b
  U₁ : e₁.U = e.U
  U₂ : e₂.U = e.U
  eta : e.eta = α • e₁.eta + β • e₂.eta
  Z₁ : e₁.Z = e.Z
  Z₂ : e₂.Z = e.Z

/-- The three are defined together, and then related. -/
def Rel₃ {E : Type*} (R : E → E → E → Prop) : Option E → Option E → Option E → Prop
  | some a, some b, some c => R a b c
  | none, none, none => True
  | _, _, _ => False

theorem Rel₃.map {E G : Type*} {R : E → E → E → Prop} {R' : G → G → G → Prop} {f₁ f₂ f : E → G} {a b c : Option E}
    (h : Rel₃ R a b c) (hf : ∀ a b c, R a b c → R' (f₁ a) (f₂ b) (f c)) :
    Rel₃ R' (a.map f₁) (b.map f₂) (c.map f) := by
  cases a <;> cases b <;> cases c <;> simp_all [Rel₃]

theorem Rel₃.bind {E G : Type*} {R : E → E → E → Prop} {R' : G → G → G → Prop} {f₁ f₂ f : E → Option G}
    {a b c : Option E} (h : Rel₃ R a b c) (hf : ∀ a b c, R a b c → Rel₃ R' (f₁ a) (f₂ b) (f c)) :
    Rel₃ R' (a.bind f₁) (b.bind f₂) (c.bind f) := by
  cases a <;> cases b <;> cases c <;> simp_all [Rel₃]

theorem Rel₃.same {E : Type*} (a : Option E) : Rel₃ (fun x y z : E => x = z ∧ y = z) a a a := by
  cases a <;> simp [Rel₃]

theorem supElem_params (qr : QR) {α β : ℝ} (F : Matrix (Fin nx) (Fin nx) ℝ) {c₁ c₂ c : Fin nx → ℝ}
    (cholQ : Matrix (Fin nx) (Fin nx) ℝ) (H : Matrix (Fin ny) (Fin nx) ℝ) {d₁ d₂ d : Fin ny → ℝ}
    (cholR : Matrix (Fin ny) (Fin ny) ℝ) {y₁ y₂ y : Fin ny → Option ℝ} (hc : c = α • c₁ + β • c₂)
    (hd : d = α • d₁ + β • d₂) (hm : ∀ i, (y₁ i).isNone = (y₂ i).isNone)
    (hy : ∀ i, y i = combineObs α β (y₁ i) (y₂ i)) :
    Rel₃ (SupElem α β) (filterParams qr F c₁ cholQ H d₁ cholR y₁) (filterParams qr F c₂ cholQ H d₂ cholR y₂)
      (filterParams qr F c cholQ H d cholR y) := by
  have hn₁ : isNan y₁ = isNan y := by
    funext i
    have h1 := hm i
    have h2 := hy i
    simp only [isNan]
    cases h3 : y₁ i <;> cases h4 : y₂ i <;> simp_all [combineObs]
  have hn₂ : isNan y₂ = isNan y := by
    rw [← hn₁]
    funext i
    have h1 := hm i
    simp only [isNan]
    cases h3 : y₁ i <;> cases h4 : y₂ i <;> simp_all
  have hyd : (collectRest (isNan y) fun i => (y i).getD 0) =
      α • (collectRest (isNan y) fun i => (y₁ i).getD 0) + β • (collectRest (isNan y) fun i => (y₂ i).getD 0) := by
    funext i
    simp only [collectRest, Pi.add_apply, Pi.smul_apply, smul_eq_mul]
    by_cases h0 : isNan y (stableArgsort (isNan y) i) = true
    · simp [h0]
    · rw [if_neg h0, if_neg h0, if_neg h0, hy]
      have h1 := hm (stableArgsort (isNan y) i)
      have h2 := hy (stableArgsort (isNan y) i)
      simp only [isNan] at h0
      cases h3 : y₁ (stableArgsort (isNan y) i) <;> cases h4 : y₂ (stableArgsort (isNan y) i) <;>
        simp_all [combineObs]
  have hdd : collectRest (isNan y) d = α • collectRest (isNan y) d₁ + β • collectRest (isNan y) d₂ := by
    funext i
    simp only [collectRest, Pi.add_apply, Pi.smul_apply, smul_eq_mul, hd]
    split_ifs <;> simp
  obtain ⟨Hc, hHc⟩ : ∃ Hc : Matrix (Fin ny) (Fin nx) ℝ, Hc = Matrix.of (collectRest (isNan y) fun i j => H i j) :=
    ⟨_, rfl⟩
  have hres : (collectRest (isNan y) fun i => (y i).getD 0) - Hc *ᵥ c - collectRest (isNan y) d =
      α • ((collectRest (isNan y) fun i => (y₁ i).getD 0) - Hc *ᵥ c₁ - collectRest (isNan y) d₁) +
      β • ((collectRest (isNan y) fun i => (y₂ i).getD 0) - Hc *ᵥ c₂ - collectRest (isNan y) d₂) := by
    rw [hyd, hdd, hc, Matrix.mulVec_add, Matrix.mulVec_smul, Matrix.mulVec_smul]
    module
  simp only [filterParams, collect, hn₁, hn₂, ← hHc]
  refine (Rel₃.same _).map ?_
  rintro P₁ P₂ P ⟨rfl, rfl⟩
  refine ⟨rfl, rfl, ?_, rfl, rfl, ?_, rfl, rfl⟩
  · rw [hres, hc, Matrix.mulVec_add, Matrix.mulVec_smul, Matrix.mulVec_smul]
    module
  · simp only [hres, Matrix.mulVec_add, Matrix.mulVec_smul]

theorem supElem_operator (qr : QR) {α β : ℝ} {a₁ a₂ a b₁ b₂ b : FilterElem nx} (ha : SupElem α β a₁ a₂ a)
    (hb : SupElem α β b₁ b₂ b) :
    Rel₃ (SupElem α β) (filteringOperator qr a₁ b₁) (filteringOperator qr a₂ b₂) (filteringOperator qr a b) := by
  simp only [filteringOperator, ha.U₁, ha.U₂, hb.Z₁, hb.Z₂, ha.A₁, ha.A₂, hb.A₁, hb.A₂, hb.U₁, hb.U₂, ha.Z₁, ha.Z₂]
  refine (Rel₃.same _).map ?_
  rintro P₁ P₂ P ⟨rfl, rfl⟩
  refine ⟨rfl, rfl, ?_, rfl, rfl, ?_, rfl, rfl⟩
  · simp only [ha.b, hb.b, hb.eta, Matrix.mulVec_add, Matrix.mulVec_smul]
    module
  · simp only [ha.b, ha.eta, hb.eta, Matrix.mulVec_add, Matrix.mulVec_sub, Matrix.mulVec_smul]
    module

/-- What C86 claims about three states of filters. -/
def SupFilter (α β : ℝ) (s₁ s₂ s : FilterState nx Inp) : Prop :=
  Rel₃ (fun m₁ m₂ m => m = α • m₁ + β • m₂) s₁.mean s₂.mean s.mean ∧
    s₁.cholCov = s.cholCov ∧ s₂.cholCov = s.cholCov

theorem supFilter_of {α β : ℝ} {s₁ s₂ s : FilterState nx Inp} (h : Rel₃ (SupElem α β) s₁.elem s₂.elem s.elem) :
    SupFilter α β s₁ s₂ s := by
  refine ⟨h.map fun _ _ _ h => h.b, ?_⟩
  have h1 : Rel₃ (fun x y z => x = z ∧ y = z) s₁.cholCov s₂.cholCov s.cholCov := h.map fun _ _ _ h => ⟨h.U₁, h.U₂⟩
  revert h1
  cases s₁.cholCov <;> cases s₂.cholCov <;> cases s.cholCov <;> simp [Rel₃]

/-- **C86**, filter. In both modes, for every model, the mean at every time is the linear combination of the two
means, and all three square roots of the covariance are the same matrix; where one of the three is not finite
(`none`), so are the others. -/
theorem filter_superposes (qr : QR) (rng : Prng K) {α β : ℝ} {cb₁ cb₂ cb : Callbacks nx ny Inp}
    (h : Superposes α β cb₁ cb₂ cb) (u₀ : Inp) (us : List Inp) (parallel : Bool) (key : Option K) :
    ∃ states₁ states₂ states,
      (filter rng (buildFilter qr cb₁) (u₀ :: us) parallel key).result = .ok states₁ ∧
      (filter rng (buildFilter qr cb₂) (u₀ :: us) parallel key).result = .ok states₂ ∧
      (filter rng (buildFilter qr cb) (u₀ :: us) parallel key).result = .ok states ∧
      ∀ t ≤ us.length, ∃ s₁ s₂ s, states₁[t]? = some s₁ ∧ states₂[t]? = some s₂ ∧ states[t]? = some s ∧
        SupFilter α β s₁ s₂ s := by
  obtain ⟨ts, hl, h1, h2, h3, h4⟩ := filter_triple rng (buildFilter qr cb₁) (buildFilter qr cb₂) (buildFilter qr cb)
    (fun s₁ s₂ s => Rel₃ (SupElem α β) s₁.elem s₂.elem s.elem)
    (fun u k => ⟨rfl, rfl, h.m0 u, (h.P0 u).1, (h.P0 u).2, by
      show (0 : Fin nx → ℝ) = α • 0 + β • 0
      simp, rfl, rfl⟩)
    (fun u k => by
      simp only [buildFilter, filterPrepare]
      rw [(h.F u).1, (h.F u).2, (h.Q u).1, (h.Q u).2, (h.H u).1, (h.H u).2, (h.R u).1, (h.R u).2]
      exact supElem_params qr _ _ _ _ (h.c u) (h.d u) (h.missing u) (h.y u))
    (fun a₁ a₂ a b₁ b₂ b ha hb => by
      simp only [buildFilter, filterCombine, Option.bind_eq_bind]
      exact ha.bind fun _ _ _ ha => hb.bind fun _ _ _ hb => supElem_operator qr ha hb) u₀ us parallel key
  refine ⟨_, _, _, h1, h2, h3, fun t ht => ?_⟩
  have hx : ts[t]? = some ts[t] := List.getElem?_eq_getElem (by omega)
  refine ⟨ts[t].1, ts[t].2.1, ts[t].2.2, ?_, ?_, ?_, supFilter_of (h4 _ (List.getElem_mem _))⟩ <;>
    rw [List.getElem?_map, hx, Option.map_some]

/-- **C86**, filter: the reported uncertainty does not depend on the data. Two models that agree in their matrices
and in which values are missing have the same square roots of covariances at all times, whatever their initial
means, offsets and observed values. -/
theorem filter_uncertainty_data_free (qr : QR) (rng : Prng K) {cb₁ cb₂ : Callbacks nx ny Inp}
    (hP : ∀ u, (cb₁.getInit u).2 = (cb₂.getInit u).2)
    (hF : ∀ u, (cb₁.getDynamics u).1 = (cb₂.getDynamics u).1 ∧ (cb₁.getDynamics u).2.2 = (cb₂.getDynamics u).2.2)
    (hH : ∀ u, (cb₁.getObservation u).1 = (cb₂.getObservation u).1 ∧
      (cb₁.getObservation u).2.2.1 = (cb₂.getObservation u).2.2.1)
    (hm : ∀ u i, ((cb₁.getObservation u).2.2.2 i).isNone = ((cb₂.getObservation u).2.2.2 i).isNone)
    (inputs : List Inp) (parallel : Bool) (key : Option K) :
    (filter rng (buildFilter qr cb₁) inputs parallel key).result.map (List.map FilterState.cholCov) =
      (filter rng (buildFilter qr cb₂) inputs parallel key).result.map (List.map FilterState.cholCov) := by
  cases inputs with
  | nil => rfl
  | cons u₀ us =>
    have h : Superposes 1 0 cb₁ cb₂ cb₁ := ⟨fun u => by simp, fun u => ⟨rfl, (hP u).symm⟩,
      fun u => ⟨rfl, (hF u).1.symm⟩, fun u => by simp, fun u => ⟨rfl, (hF u).2.symm⟩, fun u => ⟨rfl, (hH u).1.symm⟩,
      fun u => by simp, fun u => ⟨rfl, (hH u).2.symm⟩, hm, fun u i => by
        have := hm u i
        cases h1 : (cb₁.getObservation u).2.2.2 i <;> cases h2 : (cb₂.getObservation u).2.2.2 i <;>
          simp_all [combineObs]⟩
    obtain ⟨ts₁, ts₂, ts, h1, h2, h3, h4⟩ := filter_superposes qr rng h u₀ us parallel key
    obtain ⟨v₁, hv₁, hl₁, -⟩ := filter_all rng (buildFilter qr cb₁) (fun _ => True) (fun _ _ => trivial)
      (fun _ _ => trivial) (fun _ _ _ _ => trivial) u₀ us parallel key
    obtain ⟨v₂, hv₂, hl₂, -⟩ := filter_all rng (buildFilter qr cb₂) (fun _ => True) (fun _ _ => trivial)
      (fun _ _ => trivial) (fun _ _ _ _ => trivial) u₀ us parallel key
    rw [h1] at h3 hv₁
    rw [h2] at hv₂
    cases h3; cases hv₁; cases hv₂
    rw [h1, h2]
    refine congrArg Except.ok (List.ext_getElem? fun t => ?_)
    rw [List.getElem?_map, List.getElem?_map]
    rcases Nat.lt_or_ge us.length t with ht | ht
    · rw [List.getElem?_eq_none (by omega), List.getElem?_eq_none (by omega)]
    · obtain ⟨s₁, s₂, s, g1, g2, -, g4⟩ := h4 t ht
      rw [g1, g2, Option.map_some, Option.map_some, g4.2.1, g4.2.2]

/-- Relation of the elements of the smoother's scan. -/
structure SupSElem (α β : ℝ) (e₁ e₂ e : SmootherElem nx) : Prop where
  g : e.g = α • e₁.g + β • e₂.g
  E₁ : e₁.E = e.E
  E₂ : e₂.E = e.E
  D₁ : e₁.D = e.D
  D₂ : e₂.D = e.D

/-- What C86 claims about three states of smoothers. -/
structure SupSmoother (α β : ℝ) (s₁ s₂ s : SmootherState nx Inp) : Prop where
  mean : Rel₃ (fun m₁ m₂ m => m = α • m₁ + β • m₂) s₁.mean s₂.mean s.mean
  cholCov : s₁.cholCov = s.cholCov ∧ s₂.cholCov = s.cholCov
  gain : s₁.gain = s.gain ∧ s₂.gain = s.gain
  cholCovGivenNext : s₁.cholCovGivenNext = s.cholCovGivenNext ∧ s₂.cholCovGivenNext = s.cholCovGivenNext

/-- The relation that the smoother's scan preserves. -/
structure SupSState (α β : ℝ) (s₁ s₂ s : SmootherState nx Inp) : Prop where
  elem : Rel₃ (SupSElem α β) s₁.elem s₂.elem s.elem
  gain : s₁.gain = s.gain ∧ s₂.gain = s.gain
  cholCovGivenNext : s₁.cholCovGivenNext = s.cholCovGivenNext ∧ s₂.cholCovGivenNext = s.cholCovGivenNext

theorem eq_of_rel₃ {E : Type*} {a b c : Option E} (h : Rel₃ (fun x y z => x = z ∧ y = z) a b c) : a = c ∧ b = c := by
  revert h
  cases a <;> cases b <;> cases c <;> simp [Rel₃]

theorem SupSState.claim {α β : ℝ} {s₁ s₂ s : SmootherState nx Inp} (h : SupSState α β s₁ s₂ s) :
    SupSmoother α β s₁ s₂ s :=
  ⟨h.elem.map fun _ _ _ h => h.g, eq_of_rel₃ (h.elem.map fun _ _ _ h => ⟨h.D₁, h.D₂⟩), h.gain, h.cholCovGivenNext⟩

theorem supSElem_params (qr : QR) {α β : ℝ} {m₁ m₂ m : Fin nx → ℝ} (L F : Matrix (Fin nx) (Fin nx) ℝ)
    {c₁ c₂ c : Fin nx → ℝ} (cholQ : Matrix (Fin nx) (Fin nx) ℝ) (hm : m = α • m₁ + β • m₂)
    (hc : c = α • c₁ + β • c₂) :
    Rel₃ (SupSElem α β) (smootherParams qr m₁ L F c₁ cholQ) (smootherParams qr m₂ L F c₂ cholQ)
      (smootherParams qr m L F c cholQ) := by
  simp only [smootherParams]
  refine (Rel₃.same _).map ?_
  rintro P₁ P₂ P ⟨rfl, rfl⟩
  refine ⟨?_, rfl, rfl, rfl, rfl⟩
  simp only [hm, hc, Matrix.mulVec_add, Matrix.mulVec_smul]
  module

/-- Inputs of `smootherParams` from a related triple of filter states. -/
theorem sup_pair {α β : ℝ} {s₁ s₂ s : FilterState nx Inp} (h : SupFilter α β s₁ s₂ s) :
    Rel₃ (fun m₁ m₂ m => m = α • m₁ + β • m₂) s₁.mean s₂.mean s.mean ∧
    Rel₃ (fun x y z => x = z ∧ y = z) s₁.cholCov s₂.cholCov s.cholCov := by
  refine ⟨h.1, ?_⟩
  rw [h.2.1, h.2.2]
  exact Rel₃.same _

/-- **C86**, smoother. From filter states that are combined linearly, with dynamics that are, the smoother returns
in both modes means that are combined linearly, and the same square roots of covariances, gains and conditional
square roots. -/
theorem smoother_superposes (qr : QR) (rng : Prng K) {α β : ℝ} {cb₁ cb₂ cb : Callbacks nx ny Inp}
    (h : Superposes α β cb₁ cb₂ cb) (inputsOf : FilterState nx Inp → Inp) (dummy : Inp → Inp)
    (opts : SmootherOpts nx Inp) (fs₁ fs₂ fs : List (FilterState nx Inp)) (inputs : List Inp) (hne : inputs ≠ [])
    (hl₁ : inputs.length + 1 = fs₁.length) (hl₂ : inputs.length + 1 = fs₂.length)
    (hl : inputs.length + 1 = fs.length)
    (hfs : ∀ (t : ℕ) s₁ s₂ s, fs₁[t]? = some s₁ → fs₂[t]? = some s₂ → fs[t]? = some s → SupFilter α β s₁ s₂ s)
    (parallel : Bool) (key : Option K) :
    ∃ states₁ states₂ states,
      (smoother rng inputsOf (fun u => .ok (dummy u)) (buildSmoother qr cb₁.getDynamics opts) fs₁ (some inputs) parallel
        key).result = .ok states₁ ∧
      (smoother rng inputsOf (fun u => .ok (dummy u)) (buildSmoother qr cb₂.getDynamics opts) fs₂ (some inputs) parallel
        key).result = .ok states₂ ∧
      (smoother rng inputsOf (fun u => .ok (dummy u)) (buildSmoother qr cb.getDynamics opts) fs (some inputs) parallel
        key).result = .ok states ∧
      ∀ t ≤ inputs.length, ∃ s₁ s₂ s, states₁[t]? = some s₁ ∧ states₂[t]? = some s₂ ∧ states[t]? = some s ∧
        SupSmoother α β s₁ s₂ s := by
  obtain ⟨ts, hts⟩ : ∃ ts, ts = fs₁.zip (fs₂.zip fs) := ⟨_, rfl⟩
  have e1 : ts.map (·.1) = fs₁ := by
    rw [hts]; exact List.map_fst_zip (by simp; omega)
  have e2 : ts.map (·.2.1) = fs₂ := by
    have : ts.map (·.2) = fs₂.zip fs := by rw [hts]; exact List.map_snd_zip (by simp; omega)
    rw [← List.map_fst_zip (l₁ := fs₂) (l₂ := fs) (by omega), ← this, List.map_map]; rfl
  have e3 : ts.map (·.2.2) = fs := by
    have : ts.map (·.2) = fs₂.zip fs := by rw [hts]; exact List.map_snd_zip (by simp; omega)
    rw [← List.map_snd_zip (l₁ := fs₂) (l₂ := fs) (by omega), ← this, List.map_map]; rfl
  have hR : ∀ x ∈ ts, SupFilter α β x.1 x.2.1 x.2.2 := by
    intro x hx
    obtain ⟨t, ht⟩ := List.getElem?_of_mem hx
    refine hfs t _ _ _ ?_ ?_ ?_
    · rw [← e1, List.getElem?_map, ht]; rfl
    · rw [← e2, List.getElem?_map, ht]; rfl
    · rw [← e3, List.getElem?_map, ht]; rfl
  obtain ⟨qs, hq, h1, h2, h3, h4⟩ := smoother_triple rng inputsOf (fun u => .ok (dummy u))
    (buildSmoother qr cb₁.getDynamics opts) (buildSmoother qr cb₂.getDynamics opts)
    (buildSmoother qr cb.getDynamics opts) (SupFilter α β) (SupSState α β)
    (fun x₁ x₂ x u k hx => by
      obtain ⟨hx1, hx2⟩ := sup_pair hx
      refine ⟨?_, ⟨rfl, rfl⟩, ⟨rfl, rfl⟩⟩
      simp only [buildSmoother, convert, Option.bind_eq_bind]
      refine hx1.bind fun m₁ m₂ m hm => hx2.bind ?_
      rintro L₁ L₂ L ⟨rfl, rfl⟩
      exact ⟨hm, rfl, rfl, rfl, rfl⟩)
    (fun x₁ x₂ x u k hx => by
      obtain ⟨hx1, hx2⟩ := sup_pair hx
      have he : Rel₃ (SupSElem α β)
          (x₁.mean.bind fun m => x₁.cholCov.bind fun L => smootherParams qr m L (cb₁.getDynamics u).1
            (cb₁.getDynamics u).2.1 (cb₁.getDynamics u).2.2)
          (x₂.mean.bind fun m => x₂.cholCov.bind fun L => smootherParams qr m L (cb₂.getDynamics u).1
            (cb₂.getDynamics u).2.1 (cb₂.getDynamics u).2.2)
          (x.mean.bind fun m => x.cholCov.bind fun L => smootherParams qr m L (cb.getDynamics u).1
            (cb.getDynamics u).2.1 (cb.getDynamics u).2.2) := by
        refine hx1.bind fun m₁ m₂ m hm => hx2.bind ?_
        rintro L₁ L₂ L ⟨rfl, rfl⟩
        rw [(h.F u).1, (h.F u).2, (h.Q u).1, (h.Q u).2]
        exact supSElem_params qr _ _ _ hm (h.c u)
      obtain ⟨g1, g2⟩ := eq_of_rel₃ (he.map (f₁ := SmootherElem.E) (f₂ := SmootherElem.E) (f := SmootherElem.E)
        (R' := fun x y z => x = z ∧ y = z) fun _ _ _ h => ⟨h.E₁, h.E₂⟩)
      obtain ⟨g3, g4⟩ := eq_of_rel₃ (he.map (f₁ := SmootherElem.D) (f₂ := SmootherElem.D) (f := SmootherElem.D)
        (R' := fun x y z => x = z ∧ y = z) fun _ _ _ h => ⟨h.D₁, h.D₂⟩)
      simp only [buildSmoother, smootherPrepare, Option.bind_eq_bind]
      refine ⟨he, ⟨?_, ?_⟩, ⟨?_, ?_⟩⟩
      · simp only [g1]
      · simp only [g2]
      · simp only [g3]
      · simp only [g4])
    (fun a₁ a₂ a b₁ b₂ b ha hb => by
      refine ⟨?_, ha.gain, ha.cholCovGivenNext⟩
      simp only [buildSmoother, smootherCombine, Option.bind_eq_bind]
      refine hb.elem.bind fun f₁ f₂ f hf => ha.elem.bind fun e₁ e₂ e he => ?_
      refine ⟨?_, ?_, ?_, ?_, ?_⟩
      · simp only [smoothingOperator, he.g, he.E₁, he.E₂, hf.g, Matrix.mulVec_add, Matrix.mulVec_smul]
        module
      · simp only [smoothingOperator, he.E₁, hf.E₁]
      · simp only [smoothingOperator, he.E₂, hf.E₂]
      · simp only [smoothingOperator, he.E₁, hf.D₁, he.D₁]
      · simp only [smoothingOperator, he.E₂, hf.D₂, he.D₂])
    ts hR inputs (by have := congrArg List.length e1; rw [List.length_map] at this; omega) hne
    (fun u => ⟨_, rfl⟩) parallel key
  rw [e1] at h1
  rw [e2] at h2
  rw [e3] at h3
  refine ⟨_, _, _, h1, h2, h3, fun t ht => ?_⟩
  have hlt : t < qs.length := by
    have := congrArg List.length e1
    rw [List.length_map] at this
    omega
  have hx : qs[t]? = some qs[t] := List.getElem?_eq_getElem hlt
  refine ⟨qs[t].1, qs[t].2.1, qs[t].2.2, ?_, ?_, ?_, (h4 _ (List.getElem_mem _)).claim⟩ <;>
    rw [List.getElem?_map, hx, Option.map_some]

/-- Non-vacuity: two data sets for a two-dimensional model with a missing value, and their difference. -/
example : ∃ cb₁ cb₂ cb : Callbacks 2 2 ℕ, Superposes 1 (-1) cb₁ cb₂ cb ∧ cb₁ ≠ cb₂ ∧ cb ≠ cb₁ ∧
    ((cb₁.getObservation 3).2.2.2 1).isNone = true ∧ ((cb₁.getObservation 3).2.2.2 0).isNone = false := by
  let mk (a : ℝ) : Callbacks 2 2 ℕ := ⟨fun _ => (fun _ => a, 1), fun u => (!![1, 1; 0, 1], fun _ => a, (u : ℝ) • 1),
    fun u => (1, fun _ => a, 1, ![some (a * u), if u = 3 then none else some a])⟩
  have hne : ∀ a b, a ≠ b → mk a ≠ mk b := fun a b hab h => hab (by
    have := congrArg (fun cb => (cb.getInit 0).1 0) h
    simpa [mk] using this)
  refine ⟨mk 5, mk 2, mk 3, ⟨?_, fun _ => ⟨rfl, rfl⟩, fun _ => ⟨rfl, rfl⟩, ?_, fun _ => ⟨rfl, rfl⟩,
    fun _ => ⟨rfl, rfl⟩, ?_, fun _ => ⟨rfl, rfl⟩, ?_, ?_⟩, hne _ _ (by norm_num), hne _ _ (by norm_num), ?_, ?_⟩
  · intro u; funext i; simp [mk]; norm_num
  · intro u; funext i; simp [mk]; norm_num
  · intro u; funext i; simp [mk]; norm_num
  · intro u i; fin_cases i
    · rfl
    · by_cases hu : u = 3 <;> simp [mk, hu]
  · intro u i; fin_cases i
    · simp [mk, combineObs]; ring
    · by_cases hu : u = 3
      · simp [mk, combineObs, hu]
      · simp [mk, combineObs, hu]; norm_num
  · simp [mk]
  · simp [mk]

end

end Cuthbert.Kalman
