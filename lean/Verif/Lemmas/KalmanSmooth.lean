import Verif.Lemmas.KalmanPar

/-!
# The smoothing step in covariance form
-/

namespace Cuthbert.Kalman
open MeasureTheory Matrix Cuthbert Cuthbert.Spec
open scoped ENNReal

noncomputable section

set_option linter.unusedSectionVars false

variable {nx ny : ℕ} {Inp K : Type*}

/-- Inverting the transpose of a lower triangular matrix. -/
theorem transpose_inv_mul_transpose {I : Matrix (Fin nx) (Fin nx) ℝ} (G : Matrix (Fin nx) (Fin nx) ℝ) :
    (Iᵀ⁻¹ * Gᵀ)ᵀ = G * I⁻¹ := by
  rw [Matrix.transpose_mul, Matrix.transpose_transpose, ← Matrix.transpose_nonsing_inv,
    Matrix.transpose_transpose]

theorem upperPart_transpose {I : Matrix (Fin nx) (Fin nx) ℝ} (h : IsLower I) :
    (Matrix.of fun i j => if i ≤ j then Iᵀ i j else 0) = Iᵀ := by
  ext i j
  rw [Matrix.of_apply]
  split
  · rfl
  · rename_i hij
    rw [Matrix.transpose_apply, h j i (not_le.mp hij)]

/-- `condMean` as an affine function of the observation. -/
theorem condMean_affine (m : Fin nx → ℝ) (P F Q : Matrix (Fin nx) (Fin nx) ℝ) (c x' : Fin nx → ℝ) :
    condMean m P F c Q x' = (P * Fᵀ * (innovCov P F Q)⁻¹) *ᵥ x' +
      (m - (P * Fᵀ * (innovCov P F Q)⁻¹) *ᵥ (F *ᵥ m + c)) := by
  rw [condMean]
  simp only [Matrix.mulVec_mulVec, Matrix.mulVec_sub, Matrix.mul_assoc]
  abel

/-- The scan element of the smoother is the conditional law of `x_t` given `x_{t+1}`. -/
theorem smootherParams_eq (qr : QR) (m : Fin nx → ℝ) (cholP F : Matrix (Fin nx) (Fin nx) ℝ)
    (c : Fin nx → ℝ) (cholQ : Matrix (Fin nx) (Fin nx) ℝ)
    (hd : (innovCov (cholP * cholPᵀ) F (cholQ * cholQᵀ)).det ≠ 0) :
    ∃ e, smootherParams qr m cholP F c cholQ = some e ∧
      e.E = cholP * cholPᵀ * Fᵀ * (innovCov (cholP * cholPᵀ) F (cholQ * cholQᵀ))⁻¹ ∧
      (∀ x', e.E *ᵥ x' + e.g = condMean m (cholP * cholPᵀ) F c (cholQ * cholQᵀ) x') ∧
      e.D * e.Dᵀ = condCov (cholP * cholPᵀ) F (cholQ * cholQᵀ) ∧ IsLower e.D := by
  obtain ⟨T, hT⟩ : ∃ T, T = triaSq qr (block (F * cholP) cholQ cholP 0) (Nat.add_comm nx nx).le :=
    ⟨_, rfl⟩
  obtain ⟨-, -, hlow, hlow2, hpos, -⟩ := triaBlocks qr F cholP cholQ T hT
  obtain ⟨hdiag, -, hg, hD⟩ := hpos hd
  have hsol : solveUpper (topLeft T)ᵀ (bottomLeft T)ᵀ = some ((topLeft T)ᵀ⁻¹ * (bottomLeft T)ᵀ) := by
    rw [solveUpper, if_pos (by intro i; exact hdiag i), upperPart_transpose hlow]
  refine ⟨⟨m - ((topLeft T)ᵀ⁻¹ * (bottomLeft T)ᵀ)ᵀ *ᵥ (F *ᵥ m + c), ((topLeft T)ᵀ⁻¹ * (bottomLeft T)ᵀ)ᵀ,
      bottomRight T⟩, ?_, ?_, ?_, ?_, ?_⟩
  · simp only [smootherParams]
    rw [← hT, hsol]
    rfl
  · simp only
    rw [transpose_inv_mul_transpose, hg]
  · intro x'
    simp only
    rw [transpose_inv_mul_transpose, hg, condMean_affine]
  · exact hD
  · exact hlow2

/-- A singular predictive covariance makes the element non-finite. -/
theorem smootherParams_none (qr : QR) (m : Fin nx → ℝ) (cholP F : Matrix (Fin nx) (Fin nx) ℝ)
    (c : Fin nx → ℝ) (cholQ : Matrix (Fin nx) (Fin nx) ℝ)
    (hd : (innovCov (cholP * cholPᵀ) F (cholQ * cholQᵀ)).det = 0) :
    smootherParams qr m cholP F c cholQ = none := by
  obtain ⟨T, hT⟩ : ∃ T, T = triaSq qr (block (F * cholP) cholQ cholP 0) (Nat.add_comm nx nx).le :=
    ⟨_, rfl⟩
  obtain ⟨-, -, -, -, -, hneg⟩ := triaBlocks qr F cholP cholQ T hT
  have hsol : solveUpper (topLeft T)ᵀ (bottomLeft T)ᵀ = none := by
    rw [solveUpper, if_neg (by intro h; exact hneg hd h)]
  simp only [smootherParams]
  rw [← hT, hsol]
  rfl

/-- The Rauch-Tung-Striebel step in covariance form. -/
theorem smootherUpdate_eq (qr : QR) (m : Fin nx → ℝ) (cholP : Matrix (Fin nx) (Fin nx) ℝ)
    (ms : Fin nx → ℝ) (cholPs F : Matrix (Fin nx) (Fin nx) ℝ)
    (c : Fin nx → ℝ) (cholQ : Matrix (Fin nx) (Fin nx) ℝ)
    (hd : (innovCov (cholP * cholPᵀ) F (cholQ * cholQᵀ)).det ≠ 0) :
    ∃ mean chol gain, smootherUpdate qr m cholP ms cholPs F c cholQ = some ((mean, chol), gain) ∧
      gain = cholP * cholPᵀ * Fᵀ * (innovCov (cholP * cholPᵀ) F (cholQ * cholQᵀ))⁻¹ ∧
      mean = condMean m (cholP * cholPᵀ) F c (cholQ * cholQᵀ) ms ∧
      chol * cholᵀ = gain * (cholPs * cholPsᵀ) * gainᵀ + condCov (cholP * cholPᵀ) F (cholQ * cholQᵀ) ∧
      IsLower chol := by
  obtain ⟨T, hT⟩ : ∃ T, T = triaSq qr (block (F * cholP) cholQ cholP 0) (Nat.add_comm nx nx).le :=
    ⟨_, rfl⟩
  obtain ⟨-, -, hlow, hlow2, hpos, -⟩ := triaBlocks qr F cholP cholQ T hT
  obtain ⟨hdiag, hlp, hg, hD⟩ := hpos hd
  have hsol : smootherUpdate.solveLowerTrans (topLeft T) (bottomLeft T)ᵀ =
      some ((topLeft T)ᵀ⁻¹ * (bottomLeft T)ᵀ) := by
    rw [smootherUpdate.solveLowerTrans, if_pos hdiag, hlp]
  have hgain : ((topLeft T)ᵀ⁻¹ * (bottomLeft T)ᵀ)ᵀ =
      cholP * cholPᵀ * Fᵀ * (innovCov (cholP * cholPᵀ) F (cholQ * cholQᵀ))⁻¹ := by
    rw [transpose_inv_mul_transpose, hg]
  refine ⟨m + ((topLeft T)ᵀ⁻¹ * (bottomLeft T)ᵀ)ᵀ *ᵥ (ms - (c + F *ᵥ m)),
    triaSq qr (hcat (bottomRight T) (((topLeft T)ᵀ⁻¹ * (bottomLeft T)ᵀ)ᵀ * cholPs))
      (Nat.le_add_left _ _), _, ?_, hgain, ?_, ?_, ?_⟩
  · simp only [smootherUpdate]
    rw [← hT, hsol]
    rfl
  · rw [hgain, condMean_affine, add_comm c]
    simp only [Matrix.mulVec_sub]
    abel
  · rw [hgain, triaSq_gram, hcat_gram, hD, Matrix.transpose_mul _ cholPs, add_comm]
    simp only [Matrix.mul_assoc]
  · exact triaSq_lower qr _ (Nat.le_add_left _ _)

theorem smootherUpdate_none (qr : QR) (m : Fin nx → ℝ) (cholP : Matrix (Fin nx) (Fin nx) ℝ)
    (ms : Fin nx → ℝ) (cholPs F : Matrix (Fin nx) (Fin nx) ℝ)
    (c : Fin nx → ℝ) (cholQ : Matrix (Fin nx) (Fin nx) ℝ)
    (hd : (innovCov (cholP * cholPᵀ) F (cholQ * cholQᵀ)).det = 0) :
    smootherUpdate qr m cholP ms cholPs F c cholQ = none := by
  obtain ⟨T, hT⟩ : ∃ T, T = triaSq qr (block (F * cholP) cholQ cholP 0) (Nat.add_comm nx nx).le :=
    ⟨_, rfl⟩
  obtain ⟨-, -, -, -, -, hneg⟩ := triaBlocks qr F cholP cholQ T hT
  simp only [smootherUpdate]
  rw [← hT, smootherUpdate.solveLowerTrans, if_neg (hneg hd)]
  rfl

/-- The smoothing operator in covariance form. -/
theorem smoothingOperator_gram (qr : QR) (ei ej : SmootherElem nx) :
    (smoothingOperator qr ei ej).D * (smoothingOperator qr ei ej).Dᵀ =
      ej.E * (ei.D * ei.Dᵀ) * ej.Eᵀ + ej.D * ej.Dᵀ := by
  simp only [smoothingOperator]
  rw [triaSq_gram, hcat_gram, Matrix.transpose_mul]
  simp only [Matrix.mul_assoc]

/-! ## Views of smoother states -/

/-- Element of the smoother in covariance form. -/
structure SElem (nx : ℕ) where
  g : Fin nx → ℝ
  E : Matrix (Fin nx) (Fin nx) ℝ
  C : Matrix (Fin nx) (Fin nx) ℝ

def SElem.op (ei ej : SElem nx) : SElem nx := ⟨ej.E *ᵥ ei.g + ej.g, ej.E * ei.E, ej.E * ei.C * ej.Eᵀ + ej.C⟩

theorem SElem.op_assoc (a b c : SElem nx) : (a.op b).op c = a.op (b.op c) := by
  simp only [SElem.op, SElem.mk.injEq]
  refine ⟨?_, ?_, ?_⟩
  · simp only [Matrix.mulVec_add, ← Matrix.mulVec_mulVec]; abel
  · rw [Matrix.mul_assoc]
  · simp only [Matrix.mul_add, Matrix.add_mul, Matrix.transpose_mul, Matrix.mul_assoc]; abel

def sForm (e : SmootherElem nx) : SElem nx := ⟨e.g, e.E, e.D * e.Dᵀ⟩

theorem sForm_op (qr : QR) (ei ej : SmootherElem nx) :
    sForm (smoothingOperator qr ei ej) = (sForm ei).op (sForm ej) := by
  simp only [sForm, SElem.op, SElem.mk.injEq]
  exact ⟨rfl, rfl, smoothingOperator_gram qr ei ej⟩

/-- Everything a smoother state contains, up to the choice of square root of its covariance. -/
structure SView (nx : ℕ) (Inp : Type*) where
  elem : Option (SElem nx)
  modelInputs : Inp
  gain : Option (Option (Matrix (Fin nx) (Fin nx) ℝ))
  cholCovGivenNext : Option (Option (Matrix (Fin nx) (Fin nx) ℝ))

def sView (s : SmootherState nx Inp) : SView nx Inp :=
  ⟨s.elem.map sForm, s.modelInputs, s.gain, s.cholCovGivenNext⟩

def SView.op (a b : SView nx Inp) : SView nx Inp where
  elem := match a.elem, b.elem with
    | some x, some y => some (y.op x)
    | _, _ => none
  modelInputs := a.modelInputs
  gain := a.gain
  cholCovGivenNext := a.cholCovGivenNext

theorem sView_combine (qr : QR) (a b : SmootherState nx Inp) :
    sView (smootherCombine qr a b) = (sView a).op (sView b) := by
  simp only [sView, smootherCombine, SView.op, SView.mk.injEq, and_true]
  cases a.elem with
  | none => cases b.elem <;> rfl
  | some x =>
    cases b.elem with
    | none => rfl
    | some y =>
      simp only [Option.map_some, Option.bind_eq_bind, Option.bind_some]
      exact congrArg some (sForm_op qr y x)

theorem SView.op_assoc (a b c : SView nx Inp) : (a.op b).op c = a.op (b.op c) := by
  obtain ⟨a, _, _, _⟩ := a
  obtain ⟨b, _, _, _⟩ := b
  obtain ⟨c, _, _, _⟩ := c
  simp only [SView.op, SView.mk.injEq, and_true]
  cases a <;> cases b <;> cases c <;> simp [SElem.op_assoc]

/-! ## Backward chains of runs -/

/-- The backward transition stored in a prepared smoother state. -/
def bstep (e : SmootherElem nx) : BStep nx := ⟨e.g, e.E, e.D⟩

/-- The predictive covariance `F P_t Fᵀ + Q` of the step at input `u`. -/
def predCov (k : KF nx) (s : Step nx ny) : Matrix (Fin nx) (Fin nx) ℝ :=
  s.F * k.P * s.Fᵀ + s.cholQ * s.cholQᵀ

/-- The state at time `t` of a sequential smoother run on filter states of the right moments. -/
theorem smoother_invariant (qr : QR) (cb : Callbacks nx ny Inp) (u₀ : Inp) (us : List Inp)
    (opts : SmootherOpts nx Inp) (filterStates : List (FilterState nx Inp))
    (hf : ∀ t ≤ us.length, ∃ s m L, filterStates[t]? = some s ∧ s.mean = some m ∧ s.cholCov = some L ∧
      m = (kfAt cb u₀ us t).m ∧ L * Lᵀ = (kfAt cb u₀ us t).P)
    (hlen : us.length + 1 = filterStates.length) (d : Inp) (fk : Option K) (keys : ℕ → Option K)
    (states : List (SmootherState nx Inp))
    (run : IsBackwardSmootherRun (fun x k => (buildSmoother (K := K) qr cb.getDynamics opts).convert x d k)
      (buildSmoother (K := K) qr cb.getDynamics opts).smootherPrepare
      (buildSmoother (K := K) qr cb.getDynamics opts).smootherCombine filterStates us fk keys states)
    (hP : ∀ (t : ℕ) u, us[t]? = some u → (predCov (kfAt cb u₀ us t) (stepOf cb u)).det ≠ 0) :
    ∃ LT, LT * LTᵀ = (kfAt cb u₀ us us.length).P ∧
    ∀ n t, t + n = us.length → ∃ s e bs, states[t]? = some s ∧ s.elem = some e ∧
      IsBackwardChain (kfAt cb u₀ us t) ((us.drop t).map (stepOf cb)) bs ∧
      sForm e = ⟨(backMarg (kfAt cb u₀ us us.length).m LT bs).1, 0,
        (backMarg (kfAt cb u₀ us us.length).m LT bs).2⟩ ∧
      ∀ s' e', states[t + 1]? = some s' → s'.elem = some e' → ∃ b bs', bs = b :: bs' ∧
        IsBackwardChain (kfAt cb u₀ us (t + 1)) ((us.drop (t + 1)).map (stepOf cb)) bs' ∧
        sForm e' = ⟨(backMarg (kfAt cb u₀ us us.length).m LT bs').1, 0,
          (backMarg (kfAt cb u₀ us us.length).m LT bs').2⟩ ∧
        s.gain = (if opts.storeGain then some (some b.E) else none) ∧
        s.cholCovGivenNext = (if opts.storeCholCovGivenNext then some (some b.D) else none) ∧
        us[t]? = some s.modelInputs := by
  obtain ⟨sT, mT, LT, hsT, hmT, hLT, hmT', hLT'⟩ := hf us.length le_rfl
  refine ⟨LT, hLT', ?_⟩
  have hslen := run.length_eq
  intro n
  induction n with
  | zero =>
    intro t ht
    have htT : t = us.length := ht
    subst htT
    have hx : filterStates.getLast? = some sT := by
      rw [List.getLast?_eq_getElem?, show filterStates.length - 1 = us.length by omega, hsT]
    have hl := run.last _ hx
    rw [List.getLast?_eq_getElem?, show states.length - 1 = us.length by omega] at hl
    refine ⟨_, ⟨mT, 0, LT⟩, [], hl, ?_, ?_, ?_, ?_⟩
    · simp only [buildSmoother, convert, hmT, hLT]; rfl
    · rw [List.drop_length]; trivial
    · rw [← hmT']; rfl
    · intro s' e' hs'
      rw [List.getElem?_eq_none (by omega)] at hs'
      cases hs'
  | succ n ih =>
    intro t ht
    obtain ⟨s', e', bs', hs', he', hch', hform', -⟩ := ih (t + 1) (by omega)
    obtain ⟨x, m, L, hx, hm, hL, hm', hL'⟩ := hf t (by omega)
    have hut : us[t]? = some us[t] := List.getElem?_eq_getElem (by omega)
    have hst := run.step t x us[t] s' hx hut hs'
    have hdet := hP t _ hut
    obtain ⟨e, he, hE, hmean, hcov, -⟩ := smootherParams_eq qr m L (stepOf cb us[t]).F (stepOf cb us[t]).c
      (stepOf cb us[t]).cholQ (by rw [hL']; exact hdet)
    have hprep : (smootherPrepare qr cb.getDynamics opts x us[t]).elem = some e := by
      simp only [smootherPrepare, hm, hL]
      exact he
    have hb : IsBackward (kfAt cb u₀ us t).m (kfAt cb u₀ us t).P (stepOf cb us[t]) (bstep e) := by
      refine ⟨hdet, ?_, ?_⟩
      · rw [← hm', ← hL']; exact hmean
      · rw [← hL']; exact hcov
    have hdrop : us.drop t = us[t] :: us.drop (t + 1) := (List.getElem_cons_drop (by omega)).symm
    have hchain : IsBackwardChain (kfAt cb u₀ us t) ((us.drop t).map (stepOf cb)) (bstep e :: bs') := by
      rw [hdrop, List.map_cons]
      refine ⟨hb, ?_⟩
      rw [← kfAt_succ cb u₀ us t _ hut]
      exact hch'
    refine ⟨_, smoothingOperator qr e' e, bstep e :: bs', hst, ?_, hchain, ?_, ?_⟩
    · have hh : (smootherCombine qr (smootherPrepare qr cb.getDynamics opts x us[t]) s').elem =
          some (smoothingOperator qr e' e) := by
        simp only [smootherCombine, hprep, he']; rfl
      exact hh
    · rw [sForm_op, hform']
      simp only [SElem.op, sForm, backMarg, bstep, Matrix.mul_zero]
    · intro s'' e'' hs'' he''
      rw [hs', Option.some.injEq] at hs''
      subst hs''
      rw [he', Option.some.injEq] at he''
      subst he''
      refine ⟨bstep e, bs', rfl, hch', hform', ?_, ?_, hut⟩
      · have hh : (smootherCombine qr (smootherPrepare qr cb.getDynamics opts x us[t]) s').gain =
          (if opts.storeGain then some ((smootherPrepare qr cb.getDynamics opts x us[t]).elem.map (·.E))
            else none) := rfl
        rw [hprep] at hh
        exact hh
      · have hh : (smootherCombine qr (smootherPrepare qr cb.getDynamics opts x us[t]) s').cholCovGivenNext =
          (if opts.storeCholCovGivenNext then
            some ((smootherPrepare qr cb.getDynamics opts x us[t]).elem.map (·.D)) else none) := rfl
        rw [hprep] at hh
        exact hh

end

end Cuthbert.Kalman
