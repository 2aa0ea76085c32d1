import Verif.Props.TaylorFilter

/-!
# The `mean_prev` field of the linearised filters (C70)
-/

namespace Cuthbert.Linearize
open Matrix Kalman

noncomputable section

variable {nx ny : ℕ} {Inp K : Type*}

theorem updateState_meanPrev (qr : QR) (D : Dummies nx) (s₁ p : LState nx Inp) (u : Inp)
    (o : Option (ObsParams nx ny)) : (updateState qr D s₁ p u o).meanPrev = s₁.mean := by
  unfold updateState
  split <;> rfl

theorem moments_combine_meanPrev (qr : QR) (D : Dummies nx) (cb : MCallbacks nx ny Inp) (assoc : Bool)
    (a b : LState nx Inp) :
    ((buildMomentsFilter (K := K) qr D cb assoc).filterCombine a b).meanPrev = a.mean := by
  cases assoc
  · exact updateState_meanPrev _ _ _ _ _ _
  · rfl

theorem taylor_combine_meanPrev (qr : QR) (svd : SVD) (D : Dummies nx) (cb : TCallbacks nx ny Inp) (assoc : Bool)
    (a b : LState nx Inp) :
    ((buildTaylorFilter (K := K) qr svd D cb assoc).filterCombine a b).meanPrev = a.mean := by
  cases assoc
  · change (tCombineNonAssoc qr svd D cb a b).meanPrev = _
    unfold tCombineNonAssoc
    simp only []
    split <;> exact updateState_meanPrev _ _ _ _ _ _
  · rfl

theorem run_meanPrev (rng : Prng K) (f : FilterObj Inp K (LState nx Inp))
    (hf : ∀ a b, (f.filterCombine a b).meanPrev = a.mean) (v : Fin nx → ℝ)
    (hi : ∀ u k, (f.initPrepare u k).meanPrev = some v) (inputs : List Inp) (hne : inputs ≠ []) (key : Option K) :
    ∃ states, (filter rng f inputs false key).result = .ok states ∧ states.length = inputs.length ∧
      (∃ s, states[0]? = some s ∧ s.meanPrev = some v) ∧
      ∀ t s s', states[t]? = some s → states[t + 1]? = some s' → s'.meanPrev = s.mean := by
  obtain ⟨states, h1, h2⟩ := filter_sequential_is_online_run rng f inputs key hne
  refine ⟨states, h1, h2.length_eq, ?_, fun t s s' hs hs' => ?_⟩
  · obtain ⟨u, us, rfl⟩ := List.exists_cons_of_ne_nil hne
    exact ⟨_, h2.first u rfl, hi _ _⟩
  have ht : t + 1 < inputs.length := by
    rw [← h2.length_eq]
    exact (List.getElem?_eq_some_iff.mp hs').1
  have h3 := h2.step t _ s (List.getElem?_eq_getElem ht) hs
  rw [hs', Option.some.injEq] at h3
  rw [h3, hf]

/-- **C70** (sequential mode, moments filters; the first state holds the dummy; `_partial`: false in parallel mode, see
`mean_prev_parallel_wrong`). -/
theorem moments_mean_prev_partial (qr : QR) (D : Dummies nx) (cb : MCallbacks nx ny Inp) (assoc : Bool) (rng : Prng K)
    (inputs : List Inp) (hne : inputs ≠ []) (key : Option K) :
    ∃ states, (filter rng (buildMomentsFilter qr D cb assoc) inputs false key).result = .ok states ∧
      states.length = inputs.length ∧ (∃ s, states[0]? = some s ∧ s.meanPrev = some D.vec) ∧
      ∀ t s s', states[t]? = some s → states[t + 1]? = some s' → s'.meanPrev = s.mean :=
  run_meanPrev rng _ (moments_combine_meanPrev qr D cb assoc) D.vec (fun _ _ => by cases assoc <;> rfl) inputs hne key

/-- **C70** (sequential mode, Taylor filters). -/
theorem taylor_mean_prev_partial (qr : QR) (svd : SVD) (D : Dummies nx) (cb : TCallbacks nx ny Inp) (assoc : Bool)
    (rng : Prng K) (inputs : List Inp) (hne : inputs ≠ []) (key : Option K) :
    ∃ states, (filter rng (buildTaylorFilter qr svd D cb assoc) inputs false key).result = .ok states ∧
      states.length = inputs.length ∧ (∃ s, states[0]? = some s ∧ s.meanPrev = some D.vec) ∧
      ∀ t s s', states[t]? = some s → states[t + 1]? = some s' → s'.meanPrev = s.mean :=
  run_meanPrev rng _ (taylor_combine_meanPrev qr svd D cb assoc) D.vec (fun u _ => by
    cases assoc
    · change (tInitNonAssoc qr svd D cb u).meanPrev = _
      unfold tInitNonAssoc
      split <;> rfl
    · rfl) inputs hne key

/-- The parallel scan of four elements. -/
theorem associativeScan_four {α : Type*} (op : α → α → α) (a b c d : α) :
    associativeScan op [a, b, c, d] = [a, op a b, op (op a b) c, op (op a b) (op c d)] := by
  have h2 : associativeScan op [op a b, op c d] = [op a b, op (op a b) (op c d)] := by
    rw [associativeScan]
    simp [everyOther, interleave, associativeScan]
  rw [associativeScan]
  simp [everyOther, interleave, h2]

/-- In parallel mode, with three transitions, `mean_prev` of the last state is the mean two steps back. -/
theorem parallel_four (rng : Prng K) (f : FilterObj Inp K (LState nx Inp))
    (hf : ∀ a b, (f.filterCombine a b).meanPrev = a.mean) (u₀ u₁ u₂ u₃ : Inp) (key : Option K) :
    ∃ (s₀ s₁ s₂ s₃ s₃' : LState nx Inp), (filter rng f [u₀, u₁, u₂, u₃] true key).result = .ok [s₀, s₁, s₂, s₃] ∧
      (filter rng f [u₀, u₁, u₂, u₃] false key).result = .ok [s₀, s₁, s₂, s₃'] ∧
      s₃.meanPrev = s₁.mean := by
  have hlen : (filterElems rng f [u₁, u₂, u₃] key).length = 3 := by rw [filterElems_length]; rfl
  obtain ⟨e₁, e₂, e₃, he⟩ := List.length_eq_three.mp hlen
  obtain ⟨e₀, he₀⟩ : ∃ e₀, e₀ = f.initPrepare u₀ (keyAt rng key ([u₁, u₂, u₃].length + 1) 0) := ⟨_, rfl⟩
  refine ⟨e₀, f.filterCombine e₀ e₁, f.filterCombine (f.filterCombine e₀ e₁) e₂,
    f.filterCombine (f.filterCombine e₀ e₁) (f.filterCombine e₂ e₃),
    f.filterCombine (f.filterCombine (f.filterCombine e₀ e₁) e₂) e₃, ?_, ?_, hf _ _⟩
  · rw [filter_parallel_eq, he, associativeScan_four, he₀]
  · rw [filter_sequential_eq, he, he₀]
    rfl

/-- A random walk with drift one whose observations are all missing. -/
def driftModel : Callbacks 1 1 Unit where
  getInit _ := (0, 1)
  getDynamics _ := (1, 1, 1)
  getObservation _ := (0, 0, 1, fun _ => none)

/-- The same model for the moments filter. -/
def driftMoments : MCallbacks 1 1 Unit where
  getInit _ := (0, 1)
  getDynamics _ _ := (fun x => (1 *ᵥ x + 1, 1), 0)
  getObservation _ _ := (fun x => (0 *ᵥ x + 0, 1), 0, fun _ => none)

theorem driftMoments_affine : AffineMoments driftMoments driftModel :=
  ⟨fun _ => rfl, fun _ _ _ => rfl, fun _ _ _ => rfl, fun _ _ => rfl⟩

theorem drift_R : (stepOf driftModel ()).R.det ≠ 0 := obsR_det _ _ (by
  change ((1 : Matrix (Fin 1) (Fin 1) ℝ) * (1 : Matrix (Fin 1) (Fin 1) ℝ)ᵀ).det ≠ 0
  simp)

theorem drift_mean (t : ℕ) (us : List Unit) (ht : t ≤ us.length) : (kfAt driftModel () us t).m = fun _ => (t : ℝ) := by
  induction t with
  | zero => funext i; simp [kfAt, driftModel]
  | succ t ih =>
    rw [kfAt_succ driftModel () us t () (List.getElem?_eq_getElem (by omega))]
    have hH : obsH (stepOf driftModel ()).y (stepOf driftModel ()).H = 0 := by
      ext i j
      rfl
    simp only [kfStep, condMean, hH, Matrix.transpose_zero, Matrix.zero_mulVec, Matrix.mulVec_zero, add_zero]
    rw [ih (by omega)]
    funext i
    change ((1 : Matrix (Fin 1) (Fin 1) ℝ) *ᵥ fun _ => (t : ℝ)) i + 1 = _
    rw [Matrix.one_mulVec]
    push_cast
    rfl

/-- **C70 is false** in parallel mode. With three transitions of a random walk with drift one, the third filtering
mean is `2` and `mean_prev` of the fourth state is `1`. -/
theorem mean_prev_parallel_wrong (qr : QR) (D : Dummies 1) (rng : Prng K) (key : Option K) :
    ∃ s₀ s₁ s₂ s₃, (filter rng (buildMomentsFilter qr D driftMoments true) [(), (), (), ()] true key).result =
        .ok [s₀, s₁, s₂, s₃] ∧
      s₂.mean = some (fun _ => 2) ∧ s₃.meanPrev = some (fun _ => 1) := by
  obtain ⟨s₀, s₁, s₂, s₃, s₃', h1, h2, h3⟩ := parallel_four rng (buildMomentsFilter (K := K) qr D driftMoments true)
    (moments_combine_meanPrev qr D driftMoments true) () () () () key
  refine ⟨s₀, s₁, s₂, s₃, h1, ?_⟩
  have h4 := moments_associative_is_kalman qr D driftMoments driftModel driftMoments_affine rng [(), (), (), ()]
    false key
  rw [h2] at h4
  obtain ⟨states, h5, h6⟩ := filter_sequential_is_online_run rng (buildFilter (K := K) qr driftModel)
    [(), (), (), ()] key (by simp)
  rw [h5] at h4
  have h7 : [s₀, s₁, s₂, s₃'].map LState.toFilter = states := by
    injection h4
  have key : ∀ t : ℕ, t ≤ 3 → ∃ s : FilterState 1 Unit, states[t]? = some s ∧ s.mean = some (fun _ => (t : ℝ)) := fun t ht => by
    obtain ⟨s, e, e1, e2, e3, -⟩ := run_invariant qr driftModel () [(), (), ()] _ states h6 t ht
      fun u _ => ScanOk.of_R _ drift_R
    refine ⟨s, e1, ?_⟩
    unfold FilterState.mean
    rw [e2]
    have := e3.b
    simp only [Option.map_some, this, Option.some.injEq]
    exact drift_mean t _ ht
  obtain ⟨a, a1, a2⟩ := key 1 (by norm_num)
  obtain ⟨b, b1, b2⟩ := key 2 (by norm_num)
  rw [← h7] at a1 b1
  simp only [List.map_cons, List.getElem?_cons_succ, List.getElem?_cons_zero, Option.some.injEq] at a1 b1
  rw [h3]
  refine ⟨?_, ?_⟩
  · rw [LState.mean, b1, b2]; norm_num
  · rw [LState.mean, a1, a2]; norm_num

end

end Cuthbert.Linearize
