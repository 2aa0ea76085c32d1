import Verif.Props.MomentsMap
import Verif.Props.LinearizedSmoothers

/-!
# The moments smoother in other coordinates (C145)
-/

namespace Cuthbert.Linearize
open MeasureTheory Matrix Cuthbert Cuthbert.Spec Kalman

noncomputable section

variable {nx ny : ℕ} {Inp Inp' K K' : Type*}

/-- The scan element of the smoother in the coordinates `T x + b`. -/
def mapElem (T : Matrix (Fin nx) (Fin nx) ℝ) (b : Fin nx → ℝ) (e : SElem nx) : SElem nx :=
  ⟨T *ᵥ e.g + b - (T * e.E * T⁻¹) *ᵥ b, T * e.E * T⁻¹, T * e.C * Tᵀ⟩

variable {T : Matrix (Fin nx) (Fin nx) ℝ} {b : Fin nx → ℝ}

theorem mapElem_op (hT : IsUnit T.det) (x y : SElem nx) :
    mapElem T b (x.op y) = (mapElem T b x).op (mapElem T b y) := by
  have i1 : ∀ A : Matrix (Fin nx) (Fin nx) ℝ, T⁻¹ * (T * A) = A := fun A => by
    rw [← Matrix.mul_assoc, Matrix.nonsing_inv_mul _ hT, Matrix.one_mul]
  have i2 : ∀ A : Matrix (Fin nx) (Fin nx) ℝ, Tᵀ * ((T⁻¹)ᵀ * A) = A := fun A => by
    rw [← Matrix.mul_assoc, ← Matrix.transpose_mul, Matrix.nonsing_inv_mul _ hT, Matrix.transpose_one, Matrix.one_mul]
  simp only [mapElem, SElem.op, SElem.mk.injEq]
  refine ⟨?_, ?_, ?_⟩
  · simp only [Matrix.mulVec_add, Matrix.mulVec_sub, Matrix.mulVec_mulVec, Matrix.mul_assoc, i1]
    rw [Matrix.nonsing_inv_mul _ hT, Matrix.mul_one]
    abel
  · simp only [Matrix.mul_assoc, i1]
  · simp only [Matrix.mul_add, Matrix.add_mul, Matrix.transpose_mul, Matrix.mul_assoc, i1, i2]

/-- Conditioning the previous state on the next one, in other coordinates. -/
theorem smootherParams_mapped (qr qr' : QR) (hT : IsUnit T.det) {m c c' : Fin nx → ℝ}
    {L L' F F' Q Q' : Matrix (Fin nx) (Fin nx) ℝ} (hL : L' * L'ᵀ = T * (L * Lᵀ) * Tᵀ) (hF : F' * T = T * F)
    (hc : F' *ᵥ b + c' = T *ᵥ c + b) (hQ : Q' * Q'ᵀ = T * (Q * Qᵀ) * Tᵀ) :
    (smootherParams qr' (T *ᵥ m + b) L' F' c' Q').map sForm =
      ((smootherParams qr m L F c Q).map sForm).map (mapElem T b) := by
  have hTt : IsUnit (Tᵀ).det := by rwa [Matrix.det_transpose]
  have hS : innovCov (L' * L'ᵀ) F' (Q' * Q'ᵀ) = T * innovCov (L * Lᵀ) F (Q * Qᵀ) * Tᵀ := by
    have hFt : Tᵀ * F'ᵀ = Fᵀ * Tᵀ := by rw [← Matrix.transpose_mul, hF, Matrix.transpose_mul]
    have e1 : F' * (T * (L * Lᵀ) * Tᵀ) * F'ᵀ = (F' * T) * (L * Lᵀ) * (Tᵀ * F'ᵀ) := by simp only [Matrix.mul_assoc]
    rw [innovCov, innovCov, hL, hQ, e1, hF, hFt, Matrix.mul_add, Matrix.add_mul]
    simp only [Matrix.mul_assoc]
  have hFt : Tᵀ * F'ᵀ = Fᵀ * Tᵀ := by rw [← Matrix.transpose_mul, hF, Matrix.transpose_mul]
  by_cases hd : (innovCov (L * Lᵀ) F (Q * Qᵀ)).det = 0
  · rw [smootherParams_none qr m L F c Q hd, smootherParams_none qr' _ L' F' c' Q' (by
      rw [hS, Matrix.det_mul, Matrix.det_mul, hd, mul_zero, zero_mul])]
    rfl
  · have hd' : (innovCov (L' * L'ᵀ) F' (Q' * Q'ᵀ)).det ≠ 0 := by
      rw [hS, Matrix.det_mul, Matrix.det_mul]
      exact mul_ne_zero (mul_ne_zero hT.ne_zero hd) hTt.ne_zero
    obtain ⟨e, he, hE, hm, hC, -⟩ := smootherParams_eq qr m L F c Q hd
    obtain ⟨e', he', hE', hm', hC', -⟩ := smootherParams_eq qr' (T *ᵥ m + b) L' F' c' Q' hd'
    rw [he, he']
    simp only [Option.map_some, Option.some.injEq, sForm, mapElem, SElem.mk.injEq]
    have hSi : (innovCov (L' * L'ᵀ) F' (Q' * Q'ᵀ))⁻¹ = (Tᵀ)⁻¹ * (innovCov (L * Lᵀ) F (Q * Qᵀ))⁻¹ * T⁻¹ := by
      rw [hS, Matrix.mul_inv_rev, Matrix.mul_inv_rev, Matrix.mul_assoc]
    have hG : L' * L'ᵀ * F'ᵀ * (innovCov (L' * L'ᵀ) F' (Q' * Q'ᵀ))⁻¹ =
        T * (L * Lᵀ * Fᵀ * (innovCov (L * Lᵀ) F (Q * Qᵀ))⁻¹) * T⁻¹ := by
      rw [hSi, hL, show T * (L * Lᵀ) * Tᵀ * F'ᵀ = T * (L * Lᵀ) * (Fᵀ * Tᵀ) by rw [Matrix.mul_assoc, hFt],
        show T * (L * Lᵀ) * (Fᵀ * Tᵀ) * ((Tᵀ)⁻¹ * (innovCov (L * Lᵀ) F (Q * Qᵀ))⁻¹ * T⁻¹) =
          T * (L * Lᵀ) * Fᵀ * (Tᵀ * (Tᵀ)⁻¹) * (innovCov (L * Lᵀ) F (Q * Qᵀ))⁻¹ * T⁻¹ by simp only [Matrix.mul_assoc],
        Matrix.mul_nonsing_inv _ hTt]
      simp only [Matrix.mul_assoc, Matrix.one_mul]
    have hEE : e'.E = T * e.E * T⁻¹ := by rw [hE', hE, hG]
    refine ⟨?_, hEE, ?_⟩
    · have a1 : e.g = m - e.E *ᵥ (F *ᵥ m + c) := by
        have := hm (F *ᵥ m + c)
        rw [condMean, sub_self, Matrix.mulVec_zero, Matrix.mulVec_zero, Matrix.mulVec_zero, add_zero] at this
        exact eq_sub_of_add_eq' this
      have a2 : e'.g = T *ᵥ m + b - e'.E *ᵥ (F' *ᵥ (T *ᵥ m + b) + c') := by
        have := hm' (F' *ᵥ (T *ᵥ m + b) + c')
        rw [condMean, sub_self, Matrix.mulVec_zero, Matrix.mulVec_zero, Matrix.mulVec_zero, add_zero] at this
        exact eq_sub_of_add_eq' this
      have a3 : F' *ᵥ (T *ᵥ m + b) + c' = T *ᵥ (F *ᵥ m + c) + b := by
        rw [Matrix.mulVec_add, Matrix.mulVec_mulVec, hF, add_assoc, hc, Matrix.mulVec_add, Matrix.mulVec_mulVec, add_assoc]
      have a4 : (T * e.E * T⁻¹) *ᵥ (T *ᵥ (F *ᵥ m + c)) = T *ᵥ (e.E *ᵥ (F *ᵥ m + c)) := by
        rw [Matrix.mulVec_mulVec, Matrix.mul_assoc, Matrix.nonsing_inv_mul _ hT, Matrix.mul_one, ← Matrix.mulVec_mulVec]
      rw [a2, a3, hEE, Matrix.mulVec_add (T * e.E * T⁻¹), a4, a1, Matrix.mulVec_sub]
      abel
    · rw [hC', hC, condCov, condCov,
        show L' * L'ᵀ * (F'ᵀ * (innovCov (L' * L'ᵀ) F' (Q' * Q'ᵀ))⁻¹ * F') * (L' * L'ᵀ) =
          (L' * L'ᵀ * F'ᵀ * (innovCov (L' * L'ᵀ) F' (Q' * Q'ᵀ))⁻¹) * (F' * (L' * L'ᵀ)) by simp only [Matrix.mul_assoc],
        hG, hL, show F' * (T * (L * Lᵀ) * Tᵀ) = T * (F * (L * Lᵀ) * Tᵀ) by
          rw [← Matrix.mul_assoc, ← Matrix.mul_assoc, hF]; simp only [Matrix.mul_assoc],
        show T * (L * Lᵀ * Fᵀ * (innovCov (L * Lᵀ) F (Q * Qᵀ))⁻¹) * T⁻¹ * (T * (F * (L * Lᵀ) * Tᵀ)) =
          T * (L * Lᵀ * Fᵀ * (innovCov (L * Lᵀ) F (Q * Qᵀ))⁻¹) * (T⁻¹ * T) * (F * (L * Lᵀ) * Tᵀ) by
            simp only [Matrix.mul_assoc], Matrix.nonsing_inv_mul _ hT, Matrix.mul_one, Matrix.mul_sub, Matrix.sub_mul]
      simp only [Matrix.mul_assoc]

/-- Linearising commutes with the change of coordinates, for the parameters. -/
theorem linearize_mapped {f : MomentsFn nx nx} {g : MomentsFn nx ny} {f' : MomentsFn nx nx} {g' : MomentsFn nx ny}
    (h : MomentsMap T b f g f' g') (m : Fin nx → ℝ) :
    (linearizeMoments f' (T *ᵥ m + b)).1 * T = T * (linearizeMoments f m).1 ∧
    (linearizeMoments f' (T *ᵥ m + b)).1 *ᵥ b + (linearizeMoments f' (T *ᵥ m + b)).2.1 =
      T *ᵥ (linearizeMoments f m).2.1 + b := by
  have key : ∀ x, (linearizeMoments f' (T *ᵥ m + b)).1 *ᵥ (T *ᵥ x + b) + (linearizeMoments f' (T *ᵥ m + b)).2.1 =
      T *ᵥ ((linearizeMoments f m).1 *ᵥ x + (linearizeMoments f m).2.1) + b := fun x => by
    rw [linearize_eq_tangent, linearize_eq_tangent, tangent_dynamics h]
  have h0 : (linearizeMoments f' (T *ᵥ m + b)).1 *ᵥ b + (linearizeMoments f' (T *ᵥ m + b)).2.1 =
      T *ᵥ (linearizeMoments f m).2.1 + b := by simpa using key 0
  refine ⟨?_, h0⟩
  refine Matrix.ext_of_mulVec_single fun i => ?_
  have := key (Pi.single i 1)
  rw [Matrix.mulVec_add, add_assoc, h0, Matrix.mulVec_add, Matrix.mulVec_mulVec, Matrix.mulVec_mulVec, ← add_assoc] at this
  exact add_right_cancel (add_right_cancel this)

/-- The smoothed state in other coordinates: mean and covariance, or NaN in both. -/
def MappedSmoothed (T : Matrix (Fin nx) (Fin nx) ℝ) (b : Fin nx → ℝ) (s : SmootherState nx Inp)
    (s' : SmootherState nx Inp') : Prop :=
  s'.elem.map sForm = (s.elem.map sForm).map (mapElem T b) ∧ ∀ e, s.elem.map sForm = some e → e.E = 0

theorem MappedSmoothed.moments {s : SmootherState nx Inp} {s' : SmootherState nx Inp'} (h : MappedSmoothed T b s s') :
    s'.mean = s.mean.map (fun m => T *ᵥ m + b) ∧
    s'.cholCov.map (fun L => L * Lᵀ) = s.cholCov.map fun L => T * (L * Lᵀ) * Tᵀ := by
  obtain ⟨h1, h2⟩ := h
  rw [SmootherState.mean, SmootherState.mean, SmootherState.cholCov, SmootherState.cholCov]
  cases he : s.elem with
  | none =>
    rw [he] at h1
    cases he' : s'.elem with
    | none => exact ⟨rfl, rfl⟩
    | some e' => rw [he'] at h1; cases h1
  | some e =>
    rw [he] at h1 h2
    have h0 : e.E = 0 := h2 _ rfl
    cases he' : s'.elem with
    | none => rw [he'] at h1; cases h1
    | some e' =>
      rw [he'] at h1
      simp only [Option.map_some, Option.some.injEq, sForm, mapElem, SElem.mk.injEq] at h1
      obtain ⟨a1, -, a3⟩ := h1
      rw [h0, Matrix.mul_zero, Matrix.zero_mul, Matrix.zero_mulVec, sub_zero] at a1
      simp only [Option.map_some, a1, a3, and_self]

theorem mappedSmoothed_combine (qr qr' : QR) (hT : IsUnit T.det) {p s : SmootherState nx Inp}
    {p' s' : SmootherState nx Inp'} (hp : p'.elem.map sForm = (p.elem.map sForm).map (mapElem T b))
    (hs : MappedSmoothed T b s s') : MappedSmoothed T b (smootherCombine qr p s) (smootherCombine qr' p' s') := by
  have e1 := congrArg Prod.fst (sRoot_combine qr p s)
  have e2 := congrArg Prod.fst (sRoot_combine qr' p' s')
  simp only [sRoot, sRootOp] at e1 e2
  rw [MappedSmoothed, e1, e2, hp, hs.1]
  have h0 := hs.2
  cases hq : p.elem.map sForm with
  | none => simp
  | some x =>
    cases hr : s.elem.map sForm with
    | none => simp
    | some y =>
      refine ⟨by simp [mapElem_op hT], fun e he => ?_⟩
      simp only [Option.some.injEq] at he
      rw [← he, SElem.op, h0 y hr]
      exact Matrix.mul_zero _

/-- Both modes of the moments smoother return the same states up to the choice of square roots. -/
theorem moments_smoother_modes (qr : QR) (rng : Prng K) (dyn : LState nx Inp → Inp → MomentsFn nx nx × (Fin nx → ℝ))
    (opts : SmootherOpts nx Inp) (fs : List (LState nx Inp)) (us : List Inp) (key : Option K) (p : Bool)
    (ss : List (SmootherState nx Inp)) (hl : us.length + 1 = fs.length)
    (hss : (smoother rng LState.modelInputs (fun u => .ok (opts.dummy u)) (buildMomentsSmoother qr dyn opts) fs (some us)
      false key).result = .ok ss) :
    ∃ st, (smoother rng LState.modelInputs (fun u => .ok (opts.dummy u)) (buildMomentsSmoother qr dyn opts) fs (some us) p
      key).result = .ok st ∧ st.map sView = ss.map sView := by
  cases p with
  | false => exact ⟨ss, hss, rfl⟩
  | true =>
    have e := smoother_parallel_agrees_on_view rng LState.modelInputs (fun u => .ok (opts.dummy u))
      (buildMomentsSmoother (K := K) qr dyn opts) fs us hl key (fun _ => True) sView SView.op (fun _ _ _ _ => trivial)
      (fun _ _ _ _ _ _ => trivial) (fun _ _ _ _ => trivial) (fun a b _ _ => sView_combine qr a b)
      (fun _ _ _ _ _ _ => SView.op_assoc _ _ _)
    rw [hss] at e
    cases hr : (smoother rng LState.modelInputs (fun u => .ok (opts.dummy u)) (buildMomentsSmoother qr dyn opts) fs
        (some us) true key).result with
    | error e' => rw [hr] at e; cases e
    | ok st =>
      rw [hr] at e
      exact ⟨st, rfl, by simpa [Except.map] using e⟩

/-- **C145**, smoother. After an invertible affine change of the coordinates of the state of a nonlinear model, the moments
smoother run on the states of the moments filter returns the mapped means and covariances, and NaN at the same times, in
both modes. -/
theorem moments_smoother_mapped (qr qr' : QR) (D D' : Dummies nx) {cb : MCallbacks nx ny Inp}
    {cb' : MCallbacks nx ny Inp'} {F : Inp → MomentsFn nx nx} {G : Inp → MomentsFn nx ny} {Y : Inp → Fin ny → Option ℝ}
    {F' : Inp' → MomentsFn nx nx} {G' : Inp' → MomentsFn nx ny} {Y' : Inp' → Fin ny → Option ℝ}
    (hc : LinearisesAtMean cb F G Y) (hc' : LinearisesAtMean cb' F' G' Y') (hT : T.det ≠ 0) (u₀ : Inp) (u₀' : Inp')
    (us : List Inp) (us' : List Inp') (hus : us ≠ []) (hm : (cb'.getInit u₀').1 = T *ᵥ (cb.getInit u₀).1 + b)
    (hP : (cb'.getInit u₀').2 * ((cb'.getInit u₀').2)ᵀ = T * ((cb.getInit u₀).2 * ((cb.getInit u₀).2)ᵀ) * Tᵀ)
    (h : List.Forall₂ (fun u u' => MomentsMap T b (F u) (G u) (F' u') (G' u') ∧ Y' u' = Y u) us us')
    (hR : ∀ u ∈ us, ∀ x, (((G u x).2 * ((G u x).2)ᵀ).submatrix (Subtype.val : Obs (Y u) → Fin ny) Subtype.val).det ≠ 0)
    (rng rng₁ : Prng K) (rng' rng₁' : Prng K') (key key₁ : Option K) (key' key₁' : Option K')
    (opts : SmootherOpts nx Inp) (opts' : SmootherOpts nx Inp') (parallel parallel' : Bool) :
    ∃ fs fs' states states', (filter rng (buildMomentsFilter qr D cb false) (u₀ :: us) false key).result = .ok fs ∧
      (filter rng' (buildMomentsFilter qr' D' cb' false) (u₀' :: us') false key').result = .ok fs' ∧
      (smoother rng₁ LState.modelInputs (fun u => .ok (opts.dummy u)) (buildMomentsSmoother qr cb.getDynamics opts) fs
        (some us) parallel key₁).result = .ok states ∧
      (smoother rng₁' LState.modelInputs (fun u => .ok (opts'.dummy u)) (buildMomentsSmoother qr' cb'.getDynamics opts') fs'
        (some us') parallel' key₁').result = .ok states' ∧
      ∀ t ≤ us.length, ∃ s s', states[t]? = some s ∧ states'[t]? = some s' ∧
        s'.mean = s.mean.map (fun m => T *ᵥ m + b) ∧
        s'.cholCov.map (fun L => L * Lᵀ) = s.cholCov.map fun L => T * (L * Lᵀ) * Tᵀ := by
  have hlen : us.length = us'.length := h.length_eq
  obtain ⟨fs, fs', h1, h2, h3⟩ := moments_filter_mapped qr qr' D D' hc hc' u₀ u₀' us us' hm hP h hR rng rng' key key'
  have lf : us.length + 1 = fs.length := by
    obtain ⟨st, e1, e2⟩ := filter_sequential_is_online_run rng (buildMomentsFilter (K := K) qr D cb false)
      (u₀ :: us) key (by simp)
    rw [h1] at e1
    cases e1
    have := e2.length_eq
    simpa using this.symm
  have lf' : us'.length + 1 = fs'.length := by
    obtain ⟨st, e1, e2⟩ := filter_sequential_is_online_run rng' (buildMomentsFilter (K := K') qr' D' cb' false)
      (u₀' :: us') key' (by simp)
    rw [h2] at e1
    cases e1
    have := e2.length_eq
    simpa using this.symm
  have hpos : 0 < us.length := List.length_pos_iff.mpr hus
  obtain ⟨ss, q1, q2⟩ := smoother_sequential_is_backward_run rng₁ LState.modelInputs (fun u => .ok (opts.dummy u))
    (buildMomentsSmoother (K := K) qr cb.getDynamics opts) fs us key₁ lf us[0] (List.getElem?_eq_getElem hpos) _ rfl
  obtain ⟨ss', q1', q2'⟩ := smoother_sequential_is_backward_run rng₁' LState.modelInputs (fun u => .ok (opts'.dummy u))
    (buildMomentsSmoother (K := K') qr' cb'.getDynamics opts') fs' us' key₁' lf' (us'[0]'(by omega))
    (List.getElem?_eq_getElem (by omega)) _ rfl
  have l1 := q2.length_eq
  have l1' := q2'.length_eq
  have main : ∀ k ≤ us.length, ∃ s s', ss[us.length - k]? = some s ∧ ss'[us.length - k]? = some s' ∧
      MappedSmoothed T b s s' := by
    intro k
    induction k with
    | zero =>
      intro _
      obtain ⟨x, x', m, L, L', l, g1, g2, g3, g4, g5, g6, g7, -⟩ := h3 us.length le_rfl
      have a1 := q2.last x (by rw [List.getLast?_eq_getElem?, ← g1]; congr 1; omega)
      have a2 := q2'.last x' (by rw [List.getLast?_eq_getElem?, ← g2]; congr 1; omega)
      rw [List.getLast?_eq_getElem?, show ss.length - 1 = us.length by omega] at a1
      rw [List.getLast?_eq_getElem?, show ss'.length - 1 = us.length by omega] at a2
      refine ⟨_, _, a1, a2, ?_⟩
      have b1 : (Kalman.convert opts x.toFilter (opts.dummy us[0])).elem = some ⟨m, 0, L⟩ := by
        change (do let m ← x.mean; let L ← x.cholCov; return (⟨m, 0, L⟩ : SmootherElem nx)) = _
        rw [g3, g5]
        rfl
      have b2 : (Kalman.convert opts' x'.toFilter (opts'.dummy (us'[0]'(by omega)))).elem =
          some ⟨T *ᵥ m + b, 0, L'⟩ := by
        change (do let m ← x'.mean; let L ← x'.cholCov; return (⟨m, 0, L⟩ : SmootherElem nx)) = _
        rw [g4, g6]
        rfl
      change MappedSmoothed T b (Kalman.convert opts x.toFilter _) (Kalman.convert opts' x'.toFilter _)
      rw [MappedSmoothed, b1, b2]
      refine ⟨?_, fun e he => ?_⟩
      · simp [sForm, mapElem, g7]
      · simp only [Option.map_some, Option.some.injEq] at he
        rw [← he]
        rfl
    | succ k ih =>
      intro hk
      obtain ⟨s, s', a1, a2, a3⟩ := ih (by omega)
      obtain ⟨t, ht⟩ : ∃ t, t = us.length - (k + 1) := ⟨_, rfl⟩
      rw [show us.length - k = t + 1 by omega] at a1 a2
      rw [← ht]
      have htl : t < us.length := by omega
      obtain ⟨x, x', m, L, L', l, g1, g2, g3, g4, g5, g6, g7, -⟩ := h3 t (by omega)
      refine ⟨_, _, q2.step t x us[t] s g1 (List.getElem?_eq_getElem htl) a1,
        q2'.step t x' (us'[t]'(by omega)) s' g2 (List.getElem?_eq_getElem (by omega)) a2,
        mappedSmoothed_combine qr qr' hT.isUnit ?_ a3⟩
      have e := List.Forall₂.get h htl (by omega)
      have e : MomentsMap T b (F us[t]) (G us[t]) (F' (us'[t]'(by omega))) (G' (us'[t]'(by omega))) := by
        simpa using e.1
      change (smootherStateOf qr' opts' x' _ (some (linearizeMoments (cb'.getDynamics x' _).1
        (cb'.getDynamics x' _).2))).elem.map sForm = ((smootherStateOf qr opts x _ (some (linearizeMoments
          (cb.getDynamics x _).1 (cb.getDynamics x _).2))).elem.map sForm).map (mapElem T b)
      rw [hc.dynamics x _ m g3, hc'.dynamics x' _ _ g4]
      simp only [smootherStateOf, g3, g4, g5, g6, Option.bind_some]
      obtain ⟨c1, c2⟩ := linearize_mapped e m
      exact smootherParams_mapped qr qr' hT.isUnit g7 c1 c2 (e.noise_f m)
  obtain ⟨st, r1, r2⟩ := moments_smoother_modes qr rng₁ cb.getDynamics opts fs us key₁ parallel ss lf q1
  obtain ⟨st', r1', r2'⟩ := moments_smoother_modes qr' rng₁' cb'.getDynamics opts' fs' us' key₁' parallel' ss' lf' q1'
  refine ⟨fs, fs', st, st', h1, h2, r1, r1', fun t ht => ?_⟩
  obtain ⟨s, s', a1, a2, a3⟩ := main (us.length - t) (by omega)
  rw [show us.length - (us.length - t) = t by omega] at a1 a2
  have v1 := congrArg (fun l => l[t]?) r2
  have v2 := congrArg (fun l => l[t]?) r2'
  simp only [List.getElem?_map, a1, a2, Option.map_some, Option.map_eq_some_iff] at v1 v2
  obtain ⟨z, z1, z2⟩ := v1
  obtain ⟨z', z1', z2'⟩ := v2
  have w1 := congrArg SView.elem z2
  have w2 := congrArg SView.elem z2'
  simp only [sView] at w1 w2
  exact ⟨z, z', z1, z1', MappedSmoothed.moments ⟨by rw [w1, w2]; exact a3.1, by rw [w1]; exact a3.2⟩⟩

/-- The hypotheses hold for the model `x' = sin x + noise`, `y = x² + noise`, in the coordinates `2 x + 3`. -/
theorem exists_moments_smoother_mapped (qr : QR) (D : Dummies 1) (ys : List ℝ) (hys : ys ≠ []) (rng : Prng K)
    (key : Option K) (opts : SmootherOpts 1 ℝ) (parallel : Bool) :
    ∃ fs fs' states states', (filter rng (buildMomentsFilter qr D (meanCallbacks 1 1 sineDyn squareObs) false) (0 :: ys)
        false key).result = .ok fs ∧
      (filter rng (buildMomentsFilter qr D (meanCallbacks 5 2 sineDyn' squareObs') false) (0 :: ys) false
        key).result = .ok fs' ∧
      (smoother rng LState.modelInputs (fun u => .ok (opts.dummy u)) (buildMomentsSmoother qr
        (meanCallbacks 1 1 sineDyn squareObs).getDynamics opts) fs (some ys) parallel key).result = .ok states ∧
      (smoother rng LState.modelInputs (fun u => .ok (opts.dummy u)) (buildMomentsSmoother qr
        (meanCallbacks 5 2 sineDyn' squareObs').getDynamics opts) fs' (some ys) parallel key).result = .ok states' ∧
      ∀ t ≤ ys.length, ∃ s s', states[t]? = some s ∧ states'[t]? = some s' ∧
        s'.mean = s.mean.map fun m => (Matrix.of fun _ _ => (2 : ℝ)) *ᵥ m + fun _ => 3 := by
  obtain ⟨fs, fs', states, states', h1, h2, h3, h4, h5⟩ := moments_smoother_mapped (T := Matrix.of fun _ _ => 2)
    (b := fun _ => 3) qr qr D D (meanCallbacks_linearises 1 1 sineDyn squareObs)
    (meanCallbacks_linearises 5 2 sineDyn' squareObs') (by simp) 0 0 ys ys hys
    (by funext i; simp [meanCallbacks, Matrix.mulVec, dotProduct]; norm_num)
    (by ext i j; simp [meanCallbacks, Matrix.mul_apply])
    (List.forall₂_same.mpr fun _ _ => ⟨sine_mapped, rfl⟩)
    (fun u _ x => by
      have e : ((squareObs x).2 * ((squareObs x).2)ᵀ) = (1 : Matrix (Fin 1) (Fin 1) ℝ) := by
        ext i j
        simp [squareObs, Matrix.mul_apply, Matrix.one_apply, Subsingleton.elim i j]
      rw [e, Matrix.submatrix_one _ Subtype.val_injective, Matrix.det_one]
      exact one_ne_zero) rng rng rng rng key key key key opts opts parallel parallel
  refine ⟨fs, fs', states, states', h1, h2, h3, h4, fun t ht => ?_⟩
  obtain ⟨s, s', g1, g2, g3, -⟩ := h5 t ht
  exact ⟨s, s', g1, g2, g3⟩

end

end Cuthbert.Linearize
