import Verif.Lemmas.Relational
import Verif.Props.KalmanSmoother
import Verif.Props.LinearizedSmoothers

/-!
# When Gaussian filters and smoothers return NaN (C90)

A mean that is not a vector of finite numbers is `none` in the model.
-/

namespace Cuthbert
open Spec

variable {Inp K S Q : Type*}

/-! ## Flags -/

theorem runningFold_or : ∀ (a : Bool) (xs : List Bool) (t : ℕ) (b : Bool),
    (runningFold (· || ·) a xs)[t]? = some b → (b = true ↔ a = true ∨ ∃ i, i < t ∧ xs[i]? = some true)
  | a, xs, 0, b, h => by
    rw [runningFold_get_zero, Option.some.injEq] at h
    simp [h]
  | a, [], t + 1, b, h => by simp [runningFold] at h
  | a, x :: xs, t + 1, b, h => by
    simp only [runningFold, List.getElem?_cons_succ] at h
    rw [runningFold_or (a || x) xs t b h, Bool.or_eq_true, or_assoc]
    refine or_congr Iff.rfl ⟨?_, ?_⟩
    · rintro (hx | ⟨i, hi, h2⟩)
      · exact ⟨0, by omega, by simp [hx]⟩
      · exact ⟨i + 1, by omega, by simpa using h2⟩
    · rintro ⟨i, hi, h2⟩
      cases i with
      | zero => exact .inl (by simpa using h2)
      | succ i => exact .inr ⟨i, by omega, by simpa using h2⟩

/-- A flag of a combination that is the disjunction of the flags: a state is flagged if and only if something
it was made from is, in both modes. -/
theorem filter_flag (rng : Prng K) (f : FilterObj Inp K S) (q : S → Bool)
    (hq : ∀ a b, q (f.filterCombine a b) = (q a || q b)) (u₀ : Inp) (us : List Inp) (parallel : Bool)
    (key : Option K) (states : List S) (h : (filter rng f (u₀ :: us) parallel key).result = .ok states) :
    states.length = us.length + 1 ∧ ∀ (t : ℕ) s, states[t]? = some s →
      (q s = true ↔ q (f.initPrepare u₀ (keyAt rng key (us.length + 1) 0)) = true ∨
        ∃ i u, i < t ∧ us[i]? = some u ∧ q (f.filterPrepare u (keyAt rng key (us.length + 1) (i + 1))) = true) := by
  have hl : states.length = us.length + 1 := by
    cases parallel with
    | false =>
      rw [filter_sequential_eq, Except.ok.injEq] at h
      rw [← h, runningFold_length, filterElems_length]
    | true =>
      rw [filter_parallel_eq, Except.ok.injEq] at h
      rw [← h, associativeScan_length, List.length_cons, filterElems_length]
  have hb : states.map q = runningFold (· || ·) (q (f.initPrepare u₀ (keyAt rng key (us.length + 1) 0)))
      ((filterElems rng f us key).map q) := by
    cases parallel with
    | false =>
      rw [filter_sequential_eq, Except.ok.injEq] at h
      rw [← h]
      exact runningFold_map f.filterCombine (· || ·) q (fun _ => True) (fun _ _ _ _ => trivial)
        (fun a b _ _ => hq a b) _ _ (fun _ _ => trivial)
    | true =>
      rw [filter_parallel_eq, Except.ok.injEq] at h
      rw [← h, (associativeScan_map f.filterCombine (· || ·) q (fun _ => True) (fun _ _ _ _ => trivial)
        (fun a b _ _ => hq a b) _ (fun _ _ => trivial)).1, List.map_cons]
      exact associativeScan_eq_runningFold (· || ·) (fun _ => True) (fun _ _ _ _ => trivial)
        (fun a b c _ _ _ => Bool.or_assoc a b c) _ _ (fun _ _ => trivial)
  refine ⟨hl, fun t s hs => ?_⟩
  have h1 : (states.map q)[t]? = some (q s) := by rw [List.getElem?_map, hs]; rfl
  rw [hb] at h1
  rw [runningFold_or _ _ _ _ h1]
  refine or_congr Iff.rfl (exists_congr fun i => ?_)
  rw [List.getElem?_map, filterElems_get]
  cases us[i]? with
  | none => simp
  | some u => simp

theorem backFold_or : ∀ (final : Bool) (ps : List Bool) (t : ℕ) (b : Bool),
    (backFold (· || ·) final ps)[t]? = some b → (b = true ↔ final = true ∨ ∃ i, t ≤ i ∧ ps[i]? = some true)
  | final, [], t, b, h => by
    cases t with
    | zero => simp only [backFold, List.getElem?_cons_zero, Option.some.injEq] at h; simp [h]
    | succ t => simp [backFold] at h
  | final, p :: ps, t, b, h => by
    obtain ⟨r, hr, e⟩ := backFold_cons (· || ·) final p ps
    rw [e] at h
    cases t with
    | zero =>
      rw [List.getElem?_cons_zero, Option.some.injEq] at h
      rw [← h, Bool.or_eq_true, backFold_or final ps 0 r hr]
      constructor
      · rintro (h1 | h1 | ⟨i, -, h1⟩)
        · exact .inr ⟨0, le_rfl, by simp [h1]⟩
        · exact .inl h1
        · exact .inr ⟨i + 1, by omega, by simpa using h1⟩
      · rintro (h1 | ⟨i, -, h1⟩)
        · exact .inr (.inl h1)
        · cases i with
          | zero => exact .inl (by simpa using h1)
          | succ i => exact .inr (.inr ⟨i, by omega, by simpa using h1⟩)
    | succ t =>
      rw [List.getElem?_cons_succ] at h
      rw [backFold_or final ps t b h]
      refine or_congr Iff.rfl ⟨?_, ?_⟩
      · rintro ⟨i, hi, h1⟩
        exact ⟨i + 1, by omega, by simpa using h1⟩
      · rintro ⟨i, hi, h1⟩
        cases i with
        | zero => omega
        | succ i => exact ⟨i, by omega, by simpa using h1⟩

/-- Likewise for smoothers. -/
theorem smoother_flag (rng : Prng K) (inputsOf : S → Inp) (dummy : Inp → Except Err Inp)
    (f : SmootherObj Inp K S Q) (q : Q → Bool) (hq : ∀ a b, q (f.smootherCombine a b) = (q a || q b))
    (fs : List S) (us : List Inp) (hlen : us.length + 1 = fs.length) (parallel : Bool)
    (key : Option K) (states : List Q)
    (h : (smoother rng inputsOf dummy f fs (some us) parallel key).result = .ok states) :
    states.length = fs.length ∧ ∃ x u d, fs[us.length]? = some x ∧ us[0]? = some u ∧ dummy u = .ok d ∧
      ∀ (t : ℕ) s, states[t]? = some s →
      (q s = true ↔ q (f.convert x d (keyAt rng key fs.length 0)) = true ∨
        ∃ i x u, t ≤ i ∧ fs[i]? = some x ∧ us[i]? = some u ∧
          q (f.smootherPrepare x u (keyAt rng key fs.length (i + 1))) = true) := by
  rw [smoother_core_eq _ _ _ _ _ _ hlen, smootherCore] at h
  have hne : fs ≠ [] := by intro e; subst e; simp at hlen
  have hlast : fs.getLast? = fs[us.length]? := by
    rw [List.getLast?_eq_getElem?, ← hlen]
    rfl
  cases hx : fs.getLast? with
  | none => rw [hx] at h; cases h
  | some x =>
    rw [hx] at h
    cases hu : us[0]? with
    | none => rw [hu] at h; cases h
    | some u =>
      rw [hu] at h
      simp only at h
      cases hd : dummy u with
      | error e => rw [hd] at h; cases h
      | ok d =>
        rw [hd] at h
        simp only [Except.ok.injEq] at h
        obtain ⟨fin, hfin⟩ : ∃ fin, fin = f.convert x d (keyAt rng key fs.length 0) := ⟨_, rfl⟩
        obtain ⟨el, hel⟩ : ∃ el, el = smootherElems rng f fs us key := ⟨_, rfl⟩
        rw [← hfin, ← hel] at h
        have hll : el.length = us.length := by rw [hel, smootherElems_length _ _ _ _ _ hlen]
        have hb : states.map q = backFold (· || ·) (q fin) (el.map q) := by
          cases parallel with
          | false =>
            simp only [Bool.false_eq_true, if_false] at h
            rw [← h]
            exact backFold_hom f.smootherCombine (· || ·) q hq fin el
          | true =>
            simp only [if_true, associativeScanRev] at h
            rw [← h, List.map_reverse, (associativeScan_map (fun c n => f.smootherCombine n c) (fun c n => n || c)
              q (fun _ => True) (fun _ _ _ _ => trivial) (fun a b _ _ => hq b a) _ (fun _ _ => trivial)).1,
              List.map_reverse, List.map_append, List.map_singleton, List.reverse_append, List.reverse_singleton,
              List.singleton_append, associativeScan_eq_runningFold (fun c n => n || c) (fun _ => True)
                (fun _ _ _ _ => trivial) (fun a b c _ _ _ => (Bool.or_assoc c b a).symm) _ _ (fun _ _ => trivial),
              runningFold_reverse (· || ·)]
        refine ⟨?_, x, u, d, by rw [← hlast, hx], rfl, hd, fun t s hs => ?_⟩
        · have := congrArg List.length hb
          rw [List.length_map, backFold_length, List.length_map, hll] at this
          omega
        have h1 : (states.map q)[t]? = some (q s) := by rw [List.getElem?_map, hs]; rfl
        rw [hb] at h1
        rw [backFold_or _ _ _ _ h1, hfin]
        refine or_congr Iff.rfl (exists_congr fun i => ?_)
        rw [List.getElem?_map]
        constructor
        · rintro ⟨hi, h2⟩
          have hiu : i < us.length := by
            rcases Nat.lt_or_ge i el.length with h3 | h3
            · omega
            · rw [List.getElem?_eq_none h3] at h2; cases h2
          have hg := smootherElems_get rng f fs us key hlen i fs[i] us[i]
            (List.getElem?_eq_getElem (by omega)) (List.getElem?_eq_getElem hiu)
          rw [hel, hg] at h2
          exact ⟨_, _, hi, List.getElem?_eq_getElem (by omega), List.getElem?_eq_getElem hiu, by simpa using h2⟩
        · rintro ⟨x', u', hi, hx', hu', h2⟩
          refine ⟨hi, ?_⟩
          rw [hel, smootherElems_get rng f fs us key hlen i x' u' hx' hu', Option.map_some, h2]

/-! ## The Kalman filter and smoother -/

namespace Kalman
open Matrix

noncomputable section

variable {nx ny : ℕ}

theorem filterCombine_isNone (qr : QR) (a b : FilterState nx Inp) :
    (filterCombine qr a b).elem.isNone = (a.elem.isNone || b.elem.isNone) := by
  cases ha : a.elem with
  | none => simp [filterCombine, ha]
  | some e₁ =>
    cases hb : b.elem with
    | none => simp [filterCombine, ha, hb]
    | some e₂ =>
      obtain ⟨e, he, -⟩ := filteringOperator_eq qr
        (c₁ := ⟨e₁.A, e₁.b, e₁.U * e₁.Uᵀ, e₁.eta, e₁.Z * e₁.Zᵀ, 0⟩)
        (c₂ := ⟨e₂.A, e₂.b, e₂.U * e₂.Uᵀ, e₂.eta, e₂.Z * e₂.Zᵀ, 0⟩) (e₁ := e₁) (e₂ := e₂)
        ⟨rfl, rfl, rfl, rfl, rfl⟩ ⟨rfl, rfl, rfl, rfl, rfl⟩
      simp [filterCombine, ha, hb, he]

theorem FilterState.mean_none (s : FilterState nx Inp) : s.mean = none ↔ s.elem.isNone = true := by
  simp [FilterState.mean]

theorem SmootherState.mean_none (s : SmootherState nx Inp) : s.mean = none ↔ s.elem.isNone = true := by
  simp [SmootherState.mean]

theorem filterParams_isNone (qr : QR) (F : Matrix (Fin nx) (Fin nx) ℝ) (c : Fin nx → ℝ)
    (cholQ : Matrix (Fin nx) (Fin nx) ℝ) (H : Matrix (Fin ny) (Fin nx) ℝ) (d : Fin ny → ℝ)
    (cholR : Matrix (Fin ny) (Fin ny) ℝ) (y : Fin ny → Option ℝ) :
    (filterParams qr F c cholQ H d cholR y).isNone = true ↔
      (obsH y H * (cholQ * cholQᵀ) * (obsH y H)ᵀ + obsL y cholR * (obsL y cholR)ᵀ).det = 0 := by
  refine ⟨fun h => ?_, fun h => by rw [filterParams_none qr F c cholQ H d cholR y h]; rfl⟩
  by_contra hd
  obtain ⟨e, he, -⟩ := filterParams_eq qr F c cholQ H d cholR y hd
  rw [he] at h
  cases h

theorem smootherParams_isNone (qr : QR) (m : Fin nx → ℝ) (L F : Matrix (Fin nx) (Fin nx) ℝ)
    (c : Fin nx → ℝ) (cholQ : Matrix (Fin nx) (Fin nx) ℝ) :
    (smootherParams qr m L F c cholQ).isNone = true ↔ (F * (L * Lᵀ) * Fᵀ + cholQ * cholQᵀ).det = 0 := by
  refine ⟨fun h => ?_, fun h => by rw [smootherParams_none qr m L F c cholQ h]; rfl⟩
  by_contra hd
  obtain ⟨e, he, -⟩ := smootherParams_eq qr m L F c cholQ hd
  rw [he] at h
  cases h

/-- **C90** (Kalman filter). In both modes, and whatever the parameters, the mean at time `t` is NaN if and only
if at one of the times `1..t` the matrix `H Q Hᵀ + R` of the observed components is singular. So the first
failing step is visible in the result from there on, and nothing else makes the mean NaN. -/
theorem kalman_filter_nan_iff (qr : QR) (rng : Prng K) (cb : Callbacks nx ny Inp) (u₀ : Inp) (us : List Inp)
    (parallel : Bool) (key : Option K) (states : List (FilterState nx Inp))
    (h : (filter rng (buildFilter qr cb) (u₀ :: us) parallel key).result = .ok states) (t : ℕ)
    (s : FilterState nx Inp) (hs : states[t]? = some s) :
    s.mean = none ↔ ∃ i u, i < t ∧ us[i]? = some u ∧
      (obsH (stepOf cb u).y (stepOf cb u).H * ((stepOf cb u).cholQ * (stepOf cb u).cholQᵀ) *
        (obsH (stepOf cb u).y (stepOf cb u).H)ᵀ + (stepOf cb u).R).det = 0 := by
  obtain ⟨-, hf⟩ := filter_flag rng (buildFilter qr cb) (fun s => s.elem.isNone) (filterCombine_isNone qr) u₀ us
    parallel key states h
  rw [FilterState.mean_none, hf t s hs]
  constructor
  · rintro (h1 | ⟨i, u, h1, h2, h3⟩)
    · cases h1
    · exact ⟨i, u, h1, h2, (filterParams_isNone ..).mp h3⟩
  · rintro ⟨i, u, h1, h2, h3⟩
    exact .inr ⟨i, u, h1, h2, (filterParams_isNone ..).mpr h3⟩

/-- Exact observations of a state without noise: singular. -/
def exactObs : Callbacks 1 1 Unit where
  getInit _ := (0, 1)
  getDynamics _ := (1, 0, 0)
  getObservation _ := (1, 0, 0, fun _ => some 0)

example (qr : QR) (rng : Prng K) (parallel : Bool) (key : Option K) :
    ∃ s₀ s₁, (filter rng (buildFilter qr exactObs) [(), ()] parallel key).result = .ok [s₀, s₁] ∧
      s₀.mean ≠ none ∧ s₁.mean = none := by
  obtain ⟨states, h, hl, -⟩ := filter_all rng (buildFilter qr exactObs) (fun _ => True) (fun _ _ => trivial)
    (fun _ _ => trivial) (fun _ _ _ _ => trivial) () [()] parallel key
  obtain ⟨s₀, s₁, rfl⟩ := List.length_eq_two.mp hl
  refine ⟨s₀, s₁, h, fun h0 => ?_, ?_⟩
  · obtain ⟨i, u, hi, -⟩ := (kalman_filter_nan_iff qr rng exactObs () [()] parallel key _ h 0 s₀ rfl).mp h0
    omega
  · refine (kalman_filter_nan_iff qr rng exactObs () [()] parallel key _ h 1 s₁ rfl).mpr ⟨0, (), by omega, rfl, ?_⟩
    have e : (stepOf exactObs ()).cholQ = 0 := rfl
    have e' : (stepOf exactObs ()).R = 0 := by
      have e2 : obsL (stepOf exactObs ()).y (stepOf exactObs ()).cholR = 0 := rfl
      rw [Step.R, e2, Matrix.zero_mul]
    rw [e, e', Matrix.zero_mul, Matrix.mul_zero, Matrix.zero_mul, add_zero]
    have : Nonempty (Obs (stepOf exactObs ()).y) := ⟨⟨0, rfl⟩⟩
    exact Matrix.det_zero

theorem smootherCombine_isNone (qr : QR) (a b : SmootherState nx Inp) :
    (smootherCombine qr a b).elem.isNone = (a.elem.isNone || b.elem.isNone) := by
  cases ha : a.elem with
  | none => cases hb : b.elem <;> simp [smootherCombine, ha, hb]
  | some e₁ => cases hb : b.elem <;> simp [smootherCombine, ha, hb]

/-- **C90** (Kalman smoother). In both modes the smoothed mean at time `t` is NaN if and only if at one of the
times `t..T` the filtering mean is NaN or, before `T`, the predictive covariance `F P Fᵀ + Q` is singular. -/
theorem kalman_smoother_nan_iff (qr : QR) (rng : Prng K)
    (getDynamics : Inp → Matrix (Fin nx) (Fin nx) ℝ × (Fin nx → ℝ) × Matrix (Fin nx) (Fin nx) ℝ)
    (opts : SmootherOpts nx Inp) (dummy : Inp → Except Err Inp) (fs : List (FilterState nx Inp)) (us : List Inp)
    (hlen : us.length + 1 = fs.length) (parallel : Bool) (key : Option K) (states : List (SmootherState nx Inp))
    (h : (smoother rng FilterState.modelInputs dummy (buildSmoother qr getDynamics opts) fs (some us) parallel
      key).result = .ok states) (t : ℕ) (s : SmootherState nx Inp) (hs : states[t]? = some s) :
    s.mean = none ↔ ∃ i x, t ≤ i ∧ fs[i]? = some x ∧ (x.mean = none ∨ ∃ u L, us[i]? = some u ∧ x.cholCov = some L ∧
      ((getDynamics u).1 * (L * Lᵀ) * ((getDynamics u).1)ᵀ + (getDynamics u).2.2 * ((getDynamics u).2.2)ᵀ).det = 0) := by
  obtain ⟨hl, x, u, d, hx, -, -, hf⟩ := smoother_flag rng FilterState.modelInputs dummy
    (buildSmoother qr getDynamics opts) (fun s => s.elem.isNone) (smootherCombine_isNone qr) fs us hlen parallel key
    states h
  have htl : t ≤ us.length := by
    have := (List.getElem?_eq_some_iff.mp hs).1
    omega
  have hconv : ∀ (x : FilterState nx Inp) d k,
      ((buildSmoother (K := K) qr getDynamics opts).convert x d k).elem.isNone = true ↔ x.mean = none := by
    intro x d k
    change (convert opts x d).elem.isNone = true ↔ _
    rw [FilterState.mean_none]
    cases hx : x.elem <;> simp [convert, FilterState.mean, FilterState.cholCov, hx]
  have hprep : ∀ (x : FilterState nx Inp) u k,
      ((buildSmoother (K := K) qr getDynamics opts).smootherPrepare x u k).elem.isNone = true ↔
        (x.mean = none ∨ ∃ L, x.cholCov = some L ∧ ((getDynamics u).1 * (L * Lᵀ) * ((getDynamics u).1)ᵀ +
          (getDynamics u).2.2 * ((getDynamics u).2.2)ᵀ).det = 0) := by
    intro x u k
    change (smootherPrepare qr getDynamics opts x u).elem.isNone = true ↔ _
    cases hx : x.elem with
    | none => simp [smootherPrepare, FilterState.mean, hx]
    | some e =>
      have h1 : x.mean = some e.b := by simp [FilterState.mean, hx]
      have h2 : x.cholCov = some e.U := by simp [FilterState.cholCov, hx]
      have h3 : (smootherPrepare qr getDynamics opts x u).elem =
          smootherParams qr e.b e.U (getDynamics u).1 (getDynamics u).2.1 (getDynamics u).2.2 := by
        simp [smootherPrepare, h1, h2]
      rw [h3, smootherParams_isNone, h1, h2]
      simp
  rw [SmootherState.mean_none, hf t s hs]
  constructor
  · rintro (h1 | ⟨i, x', u', hi, h1, h2, h3⟩)
    · exact ⟨us.length, x, htl, hx, .inl ((hconv _ _ _).mp h1)⟩
    · refine ⟨i, x', hi, h1, ((hprep _ _ _).mp h3).imp_right ?_⟩
      rintro ⟨L, h4, h5⟩
      exact ⟨u', L, h2, h4, h5⟩
  · rintro ⟨i, x', hi, h1, h2⟩
    have hil : i ≤ us.length := by
      have := (List.getElem?_eq_some_iff.mp h1).1
      omega
    rcases h2 with h2 | ⟨u', L, h2, h3, h4⟩
    · rcases hil.eq_or_lt with rfl | hil
      · rw [hx, Option.some.injEq] at h1
        exact .inl ((hconv _ _ _).mpr (h1 ▸ h2))
      · exact .inr ⟨i, x', us[i], hi, h1, List.getElem?_eq_getElem hil, (hprep _ _ _).mpr (.inl h2)⟩
    · exact .inr ⟨i, x', u', hi, h1, h2, (hprep _ _ _).mpr (.inr ⟨L, h3, h4⟩)⟩

end

end Kalman

/-! ## The linearised filters -/

namespace Linearize
open Matrix Kalman

noncomputable section

variable {nx ny : ℕ}

theorem LState.mean_none (s : LState nx Inp) : s.mean = none ↔ s.elem.isNone = true := by
  simp [LState.mean, LState.toFilter, FilterState.mean]

theorem LState.cholCov_of_mean {s : LState nx Inp} {m : Fin nx → ℝ} (h : s.mean = some m) :
    ∃ L, s.cholCov = some L := by
  unfold LState.mean FilterState.mean at h
  unfold LState.cholCov FilterState.cholCov
  cases he : s.toFilter.elem with
  | none => rw [he] at h; cases h
  | some e => exact ⟨e.U, rfl⟩

theorem dummyElem_mean' (D : Dummies nx) (m : Option (Fin nx → ℝ)) (L : Matrix (Fin nx) (Fin nx) ℝ) (l : Option ℝ)
    (u : Inp) (p : Option (Fin nx → ℝ)) : (dummyElem D m L l u p).mean = m := by
  cases m <;> rfl

/-- The prediction of a non-associative filter fails if and only if the state or a parameter is NaN. -/
theorem predictState_none (qr : QR) (D : Dummies nx) (s : LState nx Inp) (u : Inp)
    (dyn : Option (Matrix (Fin nx) (Fin nx) ℝ × (Fin nx → ℝ) × Matrix (Fin nx) (Fin nx) ℝ)) :
    (predictState qr D s u dyn).mean = none ↔ s.mean = none ∨ dyn = none := by
  cases hm : s.mean with
  | none => simp only [predictState, hm, nanState]; simp [LState.mean, LState.toFilter, FilterState.mean]
  | some m =>
    obtain ⟨L, hL⟩ := LState.cholCov_of_mean hm
    cases dyn with
    | none => simp only [predictState, hm, hL, nanState]; simp [LState.mean, LState.toFilter, FilterState.mean]
    | some p =>
      simp only [predictState, hm, hL, dummyElem_mean']
      simp

/-- What is predicted. -/
theorem predictState_some (qr : QR) (D : Dummies nx) (s : LState nx Inp) (u : Inp) (m : Fin nx → ℝ)
    (L F : Matrix (Fin nx) (Fin nx) ℝ) (c : Fin nx → ℝ) (cholQ : Matrix (Fin nx) (Fin nx) ℝ) (hm : s.mean = some m)
    (hL : s.cholCov = some L) :
    ∃ L', (predictState qr D s u (some (F, c, cholQ))).mean = some (F *ᵥ m + c) ∧
      (predictState qr D s u (some (F, c, cholQ))).cholCov = some L' ∧
      L' * L'ᵀ = F * (L * Lᵀ) * Fᵀ + cholQ * cholQᵀ := by
  simp only [predictState, hm, hL]
  exact ⟨_, dummyElem_mean' .., rfl, predict_gram qr m L F c cholQ⟩

/-- The update of a non-associative filter fails if and only if the prediction or a parameter is NaN or the
innovation covariance is singular. -/
theorem updateState_none (qr : QR) (D : Dummies nx) (s p : LState nx Inp) (u : Inp) (obs : Option (ObsParams nx ny)) :
    (updateState qr D s p u obs).mean = none ↔ p.mean = none ∨ obs = none ∨
      ∃ L o, p.cholCov = some L ∧ obs = some o ∧
        (obsH o.y o.H * (L * Lᵀ) * (obsH o.y o.H)ᵀ + obsL o.y o.cholR * (obsL o.y o.cholR)ᵀ).det = 0 := by
  cases hm : p.mean with
  | none => simp only [updateState, hm, nanState]; simp [LState.mean, LState.toFilter, FilterState.mean]
  | some m =>
    obtain ⟨L, hL⟩ := LState.cholCov_of_mean hm
    cases obs with
    | none => simp only [updateState, hm, hL, nanState]; simp [LState.mean, LState.toFilter, FilterState.mean]
    | some o =>
      simp only [updateState, hm, hL, dummyElem_mean']
      by_cases hd : (obsH o.y o.H * (L * Lᵀ) * (obsH o.y o.H)ᵀ + obsL o.y o.cholR * (obsL o.y o.cholR)ᵀ).det = 0
      · rw [(update_none qr m L o.H o.d o.cholR o.y (some 0) hd).1]
        simp [hd]
      · rw [(update_eq qr m L o.H o.d o.cholR o.y 0 hd).1]
        simp [hd]

/-- **C90** (associative moments filter, both modes). The mean at `t` is NaN if and only if at one of the times `1..t`
`H Q Hᵀ + R` is singular, where the parameters are those of the linearisation of the model at the point that the
callbacks return. -/
theorem moments_associative_nan_iff (qr : QR) (D : Dummies nx) (cb : MCallbacks nx ny Inp) (rng : Prng K) (u₀ : Inp)
    (us : List Inp) (parallel : Bool) (key : Option K) (states : List (LState nx Inp))
    (h : (filter rng (buildMomentsFilter qr D cb true) (u₀ :: us) parallel key).result = .ok states) (t : ℕ)
    (s : LState nx Inp) (hs : states[t]? = some s) :
    s.mean = none ↔ ∃ i u, i < t ∧ us[i]? = some u ∧
      ∀ fd xd fo xo y, cb.getDynamics (dummyState D u) u = (fd, xd) →
        cb.getObservation (dummyState D u) u = (fo, xo, y) →
        (obsH y (jacfwd (fun x => (fo x).1) xo) * ((fd xd).2 * ((fd xd).2)ᵀ) *
          (obsH y (jacfwd (fun x => (fo x).1) xo))ᵀ + obsL y (fo xo).2 * (obsL y (fo xo).2)ᵀ).det = 0 := by
  obtain ⟨-, hf⟩ := filter_flag rng (buildMomentsFilter qr D cb true) (fun s => s.elem.isNone)
    (fun a b => filterCombine_isNone qr a.toFilter b.toFilter) u₀ us parallel key states h
  rw [LState.mean_none, hf t s hs]
  have key : ∀ u, (mPrepareAssoc qr D cb u).elem.isNone = true ↔
      ∀ fd xd fo xo y, cb.getDynamics (dummyState D u) u = (fd, xd) →
        cb.getObservation (dummyState D u) u = (fo, xo, y) →
        (obsH y (jacfwd (fun x => (fo x).1) xo) * ((fd xd).2 * ((fd xd).2)ᵀ) *
          (obsH y (jacfwd (fun x => (fo x).1) xo))ᵀ + obsL y (fo xo).2 * (obsL y (fo xo).2)ᵀ).det = 0 := by
    intro u
    refine (filterParams_isNone ..).trans ⟨?_, fun h => h _ _ _ _ _ rfl rfl⟩
    rintro h fd xd fo xo y h1 h2
    have e : mObservation cb (dummyState D u) u = ⟨jacfwd (fun x => (fo x).1) xo,
        (fo xo).1 - jacfwd (fun x => (fo x).1) xo *ᵥ xo, (fo xo).2, y⟩ := by
      simp only [mObservation, linearizeMoments, h2]
    rw [e, h1] at h
    exact h
  constructor
  · rintro (h1 | ⟨i, u, h1, h2, h3⟩)
    · cases h1
    · exact ⟨i, u, h1, h2, (key u).mp h3⟩
  · rintro ⟨i, u, h1, h2, h3⟩
    exact .inr ⟨i, u, h1, h2, (key u).mpr h3⟩

/-- **C90** (moments filter, sequential, one step). If the state at `t` is not NaN, the next one is NaN if and only
if the innovation covariance `H (F P Fᵀ + Q) Hᵀ + R` is singular, with the dynamics linearised where the callback asks
given the state at `t` and the observation where it asks given the predicted state `p`. -/
theorem moments_step_nan_iff (qr : QR) (D : Dummies nx) (cb : MCallbacks nx ny Inp) (rng : Prng K) (inputs : List Inp)
    (hne : inputs ≠ []) (key : Option K) (states : List (LState nx Inp))
    (h : (filter rng (buildMomentsFilter qr D cb false) inputs false key).result = .ok states) (t : ℕ)
    (s s' : LState nx Inp) (u : Inp) (hs : states[t]? = some s) (hs' : states[t + 1]? = some s')
    (hu : inputs[t + 1]? = some u) (m : Fin nx → ℝ) (L : Matrix (Fin nx) (Fin nx) ℝ) (hm : s.mean = some m)
    (hL : s.cholCov = some L) (fd : MomentsFn nx nx) (xd : Fin nx → ℝ) (hd : cb.getDynamics s u = (fd, xd)) :
    ∃ (p : LState nx Inp) (P : Matrix (Fin nx) (Fin nx) ℝ),
      p.mean = some (jacfwd (fun x => (fd x).1) xd *ᵥ (m - xd) + (fd xd).1) ∧ p.cholCov = some P ∧
      P * Pᵀ = jacfwd (fun x => (fd x).1) xd * (L * Lᵀ) * (jacfwd (fun x => (fd x).1) xd)ᵀ +
        (fd xd).2 * ((fd xd).2)ᵀ ∧
      ∀ fo xo y, cb.getObservation p u = (fo, xo, y) →
        (s'.mean = none ↔ (obsH y (jacfwd (fun x => (fo x).1) xo) * (P * Pᵀ) *
          (obsH y (jacfwd (fun x => (fo x).1) xo))ᵀ + obsL y (fo xo).2 * (obsL y (fo xo).2)ᵀ).det = 0) := by
  obtain ⟨seq, h1, h2⟩ := filter_sequential_is_online_run rng (buildMomentsFilter qr D cb false) inputs key hne
  rw [h, Except.ok.injEq] at h1
  subst h1
  have h3 := h2.step t u s hu hs
  rw [hs', Option.some.injEq] at h3
  have h4 : s' = mCombineNonAssoc qr D cb s (prepareNonAssoc D u) := h3
  obtain ⟨P, p1, p2, p3⟩ := predictState_some qr D s u m L (mDynamics cb s u).1 (mDynamics cb s u).2.1
    (mDynamics cb s u).2.2 hm hL
  refine ⟨predictState qr D s u (some (mDynamics cb s u)), P, p1.trans (congrArg some ?_), p2, ?_, fun fo xo y ho => ?_⟩
  · simp only [mDynamics, linearizeMoments, hd, Matrix.mulVec_sub]
    abel
  · rw [p3]
    simp only [mDynamics, linearizeMoments, hd]
  · have h5 : s' = updateState qr D s (predictState qr D s u (some (mDynamics cb s u))) u
        (some (mObservation cb (predictState qr D s u (some (mDynamics cb s u))) u)) := h4
    rw [h5, updateState_none]
    simp only [mObservation, linearizeMoments, ho]
    constructor
    · rintro (h6 | h6 | ⟨L', o, h6, h7, h8⟩)
      · rw [p1] at h6; cases h6
      · cases h6
      · rw [p2, Option.some.injEq] at h6
        rw [Option.some.injEq] at h7
        subst h6 h7
        exact h8
    · exact fun h6 => .inr (.inr ⟨P, _, p2, rfl, h6⟩)

/-! ### Failures persist -/

theorem dummyElem_ell_none (D : Dummies nx) (m : Option (Fin nx → ℝ)) (L : Matrix (Fin nx) (Fin nx) ℝ)
    (u : Inp) (p : Option (Fin nx → ℝ)) : (dummyElem D m L none u p).logNormalizingConstant = none := by
  cases m <;> rfl

theorem updateState_ell_none (qr : QR) (D : Dummies nx) (s p : LState nx Inp) (u : Inp) (obs : Option (ObsParams nx ny))
    (h : s.logNormalizingConstant = none) : (updateState qr D s p u obs).logNormalizingConstant = none := by
  unfold updateState
  split
  · rw [h]
    exact dummyElem_ell_none ..
  · rfl

/-- A NaN state makes the next one NaN. -/
def Sticky (op : LState nx Inp → LState nx Inp → LState nx Inp) : Prop :=
  ∀ a b, (a.mean = none → (op a b).mean = none) ∧
    (a.logNormalizingConstant = none → (op a b).logNormalizingConstant = none)

theorem assocCombine_sticky (qr : QR) : Sticky (nx := nx) (Inp := Inp) (assocCombine qr) := by
  intro a b
  constructor
  · intro h
    rw [LState.mean_none] at h ⊢
    exact (filterCombine_isNone qr a.toFilter b.toFilter).trans (by
      rw [show a.toFilter.elem.isNone = true from h]; rfl)
  · intro h
    unfold LState.logNormalizingConstant FilterState.logNormalizingConstant at h ⊢
    change (filterCombine qr a.toFilter b.toFilter).elem.bind _ = none
    cases ha : a.toFilter.elem with
    | none => simp [filterCombine, ha]
    | some e₁ =>
      rw [ha] at h
      cases hb : b.toFilter.elem with
      | none => simp [filterCombine, ha, hb]
      | some e₂ =>
        obtain ⟨e, he, -, -, -, -, h1, -⟩ := filteringOperator_eq qr
          (c₁ := ⟨e₁.A, e₁.b, e₁.U * e₁.Uᵀ, e₁.eta, e₁.Z * e₁.Zᵀ, 0⟩)
          (c₂ := ⟨e₂.A, e₂.b, e₂.U * e₂.Uᵀ, e₂.eta, e₂.Z * e₂.Zᵀ, 0⟩) (e₁ := e₁) (e₂ := e₂)
          ⟨rfl, rfl, rfl, rfl, rfl⟩ ⟨rfl, rfl, rfl, rfl, rfl⟩
        simp [filterCombine, ha, hb, he, h1 h]

theorem moments_sticky (qr : QR) (D : Dummies nx) (cb : MCallbacks nx ny Inp) (assoc : Bool) :
    Sticky (buildMomentsFilter (K := K) qr D cb assoc).filterCombine := by
  cases assoc
  · intro a b
    refine ⟨fun h => ?_, fun h => updateState_ell_none _ _ _ _ _ _ h⟩
    exact (updateState_none ..).mpr (.inl ((predictState_none ..).mpr (.inl h)))
  · exact assocCombine_sticky qr

theorem taylor_sticky (qr : QR) (svd : SVD) (D : Dummies nx) (cb : TCallbacks nx ny Inp) (assoc : Bool) :
    Sticky (buildTaylorFilter (K := K) qr svd D cb assoc).filterCombine := by
  cases assoc
  · intro a b
    constructor
    · intro h
      change (tCombineNonAssoc qr svd D cb a b).mean = none
      unfold tCombineNonAssoc
      simp only []
      split <;> exact (updateState_none ..).mpr (.inl ((predictState_none ..).mpr (.inl h)))
    · intro h
      change (tCombineNonAssoc qr svd D cb a b).logNormalizingConstant = none
      unfold tCombineNonAssoc
      simp only []
      split <;> exact updateState_ell_none _ _ _ _ _ _ h
  · exact assocCombine_sticky qr

theorem run_persists (rng : Prng K) (f : FilterObj Inp K (LState nx Inp)) (hf : Sticky f.filterCombine)
    (inputs : List Inp) (hne : inputs ≠ []) (key : Option K) (states : List (LState nx Inp))
    (h : (filter rng f inputs false key).result = .ok states) (t t' : ℕ) (htt : t ≤ t') (s s' : LState nx Inp)
    (hs : states[t]? = some s) (hs' : states[t']? = some s') :
    (s.mean = none → s'.mean = none ∧ s'.logNormalizingConstant = none) ∧
      (s.logNormalizingConstant = none → s'.logNormalizingConstant = none) := by
  obtain ⟨seq, h1, h2⟩ := filter_sequential_is_online_run rng f inputs key hne
  rw [h, Except.ok.injEq] at h1
  subst h1
  have key2 : (s.mean = none → s'.mean = none) ∧
      (s.logNormalizingConstant = none → s'.logNormalizingConstant = none) := by
    obtain ⟨d, rfl⟩ := Nat.exists_eq_add_of_le htt
    induction d generalizing s' with
    | zero =>
      rw [Nat.add_zero, hs, Option.some.injEq] at hs'
      exact hs' ▸ ⟨id, id⟩
    | succ d ih =>
      have hlt := (List.getElem?_eq_some_iff.mp hs').1
      have hp : states[t + d]? = some states[t + d] := List.getElem?_eq_getElem (by omega)
      obtain ⟨i1, i2⟩ := ih _ (by omega) hp
      have hi : inputs[t + d + 1]? = some (inputs[t + d + 1]'(by rw [← h2.length_eq]; omega)) :=
        List.getElem?_eq_getElem _
      have h3 := h2.step (t + d) _ _ hi hp
      have h4 : states[t + d + 1]? = some s' := hs'
      rw [h4, Option.some.injEq] at h3
      rw [h3]
      exact ⟨fun h => (hf _ _).1 (i1 h), fun h => (hf _ _).2 (i2 h)⟩
  refine ⟨fun h => ⟨key2.1 h, ?_⟩, key2.2⟩
  have h4 := key2.1 h
  rw [LState.mean_none, Option.isNone_iff_eq_none] at h4
  simp [LState.logNormalizingConstant, LState.toFilter, FilterState.logNormalizingConstant, h4]

/-- **C90** (moments filter, sequential): a NaN never disappears. From the first NaN mean on, all means and log
normalising constants are NaN; from the first NaN log normalising constant on, all of those are. -/
theorem moments_nan_persists (qr : QR) (D : Dummies nx) (cb : MCallbacks nx ny Inp) (assoc : Bool) (rng : Prng K)
    (inputs : List Inp) (hne : inputs ≠ []) (key : Option K) (states : List (LState nx Inp))
    (h : (filter rng (buildMomentsFilter qr D cb assoc) inputs false key).result = .ok states) (t t' : ℕ)
    (htt : t ≤ t') (s s' : LState nx Inp) (hs : states[t]? = some s) (hs' : states[t']? = some s') :
    (s.mean = none → s'.mean = none ∧ s'.logNormalizingConstant = none) ∧
      (s.logNormalizingConstant = none → s'.logNormalizingConstant = none) :=
  run_persists rng _ (moments_sticky qr D cb assoc) inputs hne key states h t t' htt s s' hs hs'

/-- **C90** (Taylor filter, sequential): a NaN never disappears, not even through skipped predictions. -/
theorem taylor_nan_persists (qr : QR) (svd : SVD) (D : Dummies nx) (cb : TCallbacks nx ny Inp) (assoc : Bool)
    (rng : Prng K) (inputs : List Inp) (hne : inputs ≠ []) (key : Option K) (states : List (LState nx Inp))
    (h : (filter rng (buildTaylorFilter qr svd D cb assoc) inputs false key).result = .ok states) (t t' : ℕ)
    (htt : t ≤ t') (s s' : LState nx Inp) (hs : states[t]? = some s) (hs' : states[t']? = some s') :
    (s.mean = none → s'.mean = none ∧ s'.logNormalizingConstant = none) ∧
      (s.logNormalizingConstant = none → s'.logNormalizingConstant = none) :=
  run_persists rng _ (taylor_sticky qr svd D cb assoc) inputs hne key states h t t' htt s s' hs hs'

/-! ### Flat transition densities -/

theorem symmetricInvSqrt_flat (qr : QR) (svd : SVD) (rtol : ℝ) (b : Bool) (A : NMat ny) (i : Fin ny)
    (h : ((A i i).isNone && b) = true ∨ ((∀ r, A r i = some 0) ∧ ∀ c, A i c = some 0)) :
    symmetricInvSqrt qr svd rtol b A i i = none := by
  unfold symmetricInvSqrt
  simp only [Equiv.apply_symm_apply, true_and]
  rw [if_pos]
  rcases h with h | h
  · rw [h]; rfl
  · rw [decide_eq_true h, Bool.or_true]

/-- The Hessian of the transition density in the new state has a vanishing row and column: to second order the
density does not restrict component `i` of the new state. -/
def FlatAt (p : CondDensity nx nx) (xPrev xCurr : Fin nx → Option ℝ) (i : Fin nx) : Prop :=
  ∀ j, p.hess xPrev xCurr i j = some 0 ∧ p.hess xPrev xCurr j i = some 0

theorem linearizeLogDensity_flat (qr : QR) (svd : SVD) (rtol : ℝ) (b : Bool) (p : CondDensity nx nx)
    (xPrev xCurr : Fin nx → Option ℝ) (i : Fin nx) (h : FlatAt p xPrev xCurr i) :
    (linearizeLogDensity qr svd rtol b p xPrev xCurr).2.2 i i = none := by
  have hneg : (-0 : ℝ) = 0 := neg_zero
  unfold linearizeLogDensity
  simp only []
  apply symmetricInvSqrt_flat
  cases b with
  | false =>
    right
    simp only [Bool.false_eq_true, if_false]
    exact ⟨fun r => by rw [(h r).2, Option.map_some, hneg], fun c => by rw [(h c).1, Option.map_some, hneg]⟩
  | true =>
    simp only [if_true]
    cases hx : xCurr i with
    | none => left; simp
    | some v =>
      right
      constructor
      · intro r
        rw [(h r).2, Option.map_some, hneg, if_neg]
        rintro ⟨rfl, h2⟩
        rw [hx, (h r).1] at h2
        simp at h2
      · intro c
        rw [(h c).1, Option.map_some, hneg, if_neg]
        rintro ⟨rfl, h2⟩
        rw [(h i).1] at h2
        simp at h2

theorem finite_none {a b : ℕ} (A : Fin a → Fin b → Option ℝ) (i : Fin a) (j : Fin b) (h : A i j = none) :
    finite A = none := by
  rw [finite, if_neg]
  intro h2
  have := h2 i j
  rw [h] at this
  cases this

theorem tDynamics_flat (qr : QR) (svd : SVD) (cb : TCallbacks nx ny Inp) (s : LState nx Inp) (u : Inp)
    (p : CondDensity nx nx) (xPrev xCurr : Fin nx → Option ℝ) (hc : cb.getDynamics s u = (p, xPrev, xCurr))
    (i : Fin nx) (h : FlatAt p xPrev xCurr i) (hsk : ¬ ((∀ i, xCurr i = none) ∧ ∀ i, xPrev i = none)) :
    tDynamics qr svd cb s u = none := by
  unfold tDynamics
  have hsk' : ¬ skipPredict (cb.getDynamics s u).2.2 (cb.getDynamics s u).2.1 := by rw [hc]; exact hsk
  simp only []
  rw [if_neg hsk']
  change (do
    return (← finite (linearizeLogDensity qr svd cb.rtol cb.ignoreNanDims (cb.getDynamics s u).1
        (cb.getDynamics s u).2.1 (cb.getDynamics s u).2.2).1,
      ← finiteVec (linearizeLogDensity qr svd cb.rtol cb.ignoreNanDims (cb.getDynamics s u).1
        (cb.getDynamics s u).2.1 (cb.getDynamics s u).2.2).2.1,
      ← finite (linearizeLogDensity qr svd cb.rtol cb.ignoreNanDims (cb.getDynamics s u).1
        (cb.getDynamics s u).2.1 (cb.getDynamics s u).2.2).2.2)) = none
  rw [hc, finite_none _ i i (linearizeLogDensity_flat qr svd cb.rtol cb.ignoreNanDims p xPrev xCurr i h)]
  cases finite (linearizeLogDensity qr svd cb.rtol cb.ignoreNanDims p xPrev xCurr).1 <;>
    cases finiteVec (linearizeLogDensity qr svd cb.rtol cb.ignoreNanDims p xPrev xCurr).2.1 <;> rfl

/-- **C90** (Taylor filter, sequential, flat transitions). If at some step the transition density is flat in a
component of the new state where the callback asks for the linearisation (and the points are not all NaN, which
means skipping the prediction), the mean and the log normalising constant are NaN from then on, whatever
`ignore_nan_dims` is. The associative filter asks the callback with a dummy state. -/
theorem taylor_flat_transition_nan (qr : QR) (svd : SVD) (D : Dummies nx) (cb : TCallbacks nx ny Inp) (assoc : Bool)
    (rng : Prng K) (inputs : List Inp) (hne : inputs ≠ []) (key : Option K) (states : List (LState nx Inp))
    (h : (filter rng (buildTaylorFilter qr svd D cb assoc) inputs false key).result = .ok states) (t t' : ℕ)
    (htt : t < t') (s s' : LState nx Inp) (hs : states[t]? = some s) (hs' : states[t']? = some s') (u : Inp)
    (hu : inputs[t + 1]? = some u) (p : CondDensity nx nx) (xPrev xCurr : Fin nx → Option ℝ)
    (hc : cb.getDynamics (if assoc then dummyState D u else s) u = (p, xPrev, xCurr)) (i : Fin nx)
    (hflat : FlatAt p xPrev xCurr i) (hsk : ¬ ((∀ i, xCurr i = none) ∧ ∀ i, xPrev i = none)) :
    s'.mean = none ∧ s'.logNormalizingConstant = none := by
  obtain ⟨seq, h1, h2⟩ := filter_sequential_is_online_run rng (buildTaylorFilter qr svd D cb assoc) inputs key hne
  have hst := h2.step t u s hu (by
    rw [h, Except.ok.injEq] at h1
    rw [← h1]; exact hs)
  rw [h, Except.ok.injEq] at h1
  subst h1
  refine (taylor_nan_persists qr svd D cb assoc rng inputs hne key states h (t + 1) t' htt _ s' hst hs').1 ?_
  cases assoc with
  | false =>
    have hd := tDynamics_flat qr svd cb s u p xPrev xCurr hc i hflat hsk
    change (tCombineNonAssoc qr svd D cb s (prepareNonAssoc D u)).mean = none
    unfold tCombineNonAssoc
    simp only []
    have hpr : (predictState qr D s (prepareNonAssoc D u).modelInputs
        (tDynamics qr svd cb s (prepareNonAssoc D u).modelInputs)).mean = none :=
      (predictState_none ..).mpr (.inr hd)
    split <;> exact (updateState_none ..).mpr (.inl hpr)
  | true =>
    have hd := tDynamics_flat qr svd cb _ u p xPrev xCurr hc i hflat hsk
    rw [if_pos rfl] at hd
    change (assocCombine qr s (tPrepareAssoc qr svd D cb u)).mean = none
    rw [LState.mean_none]
    refine (filterCombine_isNone qr s.toFilter (tPrepareAssoc qr svd D cb u).toFilter).trans ?_
    have : (tPrepareAssoc qr svd D cb u).toFilter.elem = none := by
      change (tPrepareAssoc qr svd D cb u).elem = none
      unfold tPrepareAssoc
      rw [hd]
      rfl
    rw [this, Option.isNone_none, Bool.or_true]

/-! ### The hypotheses are met -/

/-- A transition density on the line that is constant. -/
def flatCallbacks : TCallbacks 1 1 Unit where
  getInit _ := (⟨fun x => -(x 0 ^ 2) / 2, fun x i => (x i).map fun v => -v, fun _ _ _ => some (-1)⟩, fun _ => some 0)
  getDynamics _ _ := (⟨fun _ _ => 0, fun _ _ _ => some 0, fun _ _ _ _ => some 0, fun _ _ _ _ => some 0⟩,
    fun _ => some 0, fun _ => some 0)
  getObservation _ _ := .potential ⟨fun x => -(x 0 ^ 2) / 2, fun x i => (x i).map fun v => -v,
    fun _ _ _ => some (-1)⟩ fun _ => some 0
  rtol := 0
  ignoreNanDims := true

example (s : LState 1 Unit) : ∃ p xPrev xCurr, flatCallbacks.getDynamics s () = (p, xPrev, xCurr) ∧
    FlatAt p xPrev xCurr 0 ∧ ¬ ((∀ i, xCurr i = none) ∧ ∀ i, xPrev i = none) :=
  ⟨_, _, _, rfl, fun _ => ⟨rfl, rfl⟩, fun h => by have := h.1 0; cases this⟩

end

end Linearize

end Cuthbert
