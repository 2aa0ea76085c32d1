import Verif.Props.Discrete
import Verif.Props.GridDiscrete
import Verif.Lemmas.Mixing

/-!
# Property C88: discrete filters and smoothers forget

If the transition probabilities satisfy the strong mixing condition with constant `ε` (`HMM.Mixes`), two runs of the
filter or of the smoother that agree on the steps around a time return, at that time, distributions that differ by
at most `2 (1 - ε)^a + 2 (1 - ε)^b` in total, where `a` is the number of agreeing steps before and `b` that of the
agreeing steps after. Nothing is assumed about the other steps, the initial distributions or the lengths of the runs.
-/

namespace Cuthbert.Discrete
open Cuthbert Fl Spec Finset

variable {n : ℕ} {Inp Inp' K K' : Type*} {M M' : HMM (Fin (n + 1))} {ε : ℝ}

/-- Likelihoods are not negative at the first `T` steps. -/
def LikNonneg (M : HMM (Fin (n + 1))) (T : ℕ) : Prop := ∀ t, t < T → ∀ j, 0 ≤ M.lik t j

theorem filterJoint_nonneg' (hV : Valid M) : ∀ {t : ℕ}, LikNonneg M t → ∀ j, 0 ≤ M.filterJoint t j
  | 0, _, j => by rw [HMM.filterJoint_zero]; exact hV.init_nonneg j
  | t + 1, hl, j => by
    rw [HMM.filterJoint_succ]
    exact sum_nonneg fun i _ => mul_nonneg
      (filterJoint_nonneg' hV (fun t' h j => hl t' (by omega) j) i)
      (mul_nonneg (hV.trans_nonneg t i j) (hl t (by omega) j))

theorem future_pos' (hV : Valid M) {T : ℕ} (hl : LikNonneg M T) (hpos : RowsPositive M T) (m : ℕ) :
    ∀ t, t + m ≤ T → ∀ k, 0 < M.future t m k := by
  induction m with
  | zero => intro t _ k; rw [HMM.future_zero]; exact one_pos
  | succ m ih =>
    intro t ht k
    rw [HMM.future_succ]
    have hn : ∀ j, 0 ≤ M.stepMat t k j := fun j =>
      mul_nonneg (hV.trans_nonneg t k j) (hl t (by omega) j)
    obtain ⟨j, -, hj⟩ : ∃ j ∈ univ, (0 : ℝ) < M.stepMat t k j := by
      by_contra hc
      push Not at hc
      have := hpos t (by omega) k
      exact absurd (sum_nonpos hc) (not_le.2 this)
    exact sum_pos' (fun j _ => mul_nonneg (hn j) (ih (t + 1) (by omega) j).le)
      ⟨j, mem_univ j, mul_pos hj (ih (t + 1) (by omega) j)⟩

theorem sum_filterJoint_pos (hV : Valid M) {T : ℕ} (hl : LikNonneg M T) (hpos : RowsPositive M T) :
    ∀ {t : ℕ}, t ≤ T → ∃ j, 0 < M.filterJoint t j := by
  intro t ht
  by_contra hc
  push Not at hc
  have hz : ∀ j, M.filterJoint t j = 0 := fun j => le_antisymm (hc j)
    (filterJoint_nonneg' hV (fun t' h j => hl t' (by omega) j) j)
  have h0 : ∑ j, M.filterJoint t j = ∑ j, M.init j * M.future 0 t j := by
    have h1 : ∀ j, M.filterJoint t j = ∑ i, M.init i * M.stepsFrom 0 t i j := by
      intro j
      have := HMM.filterJoint_steps M 0 t j
      simpa [HMM.filterJoint_zero] using this
    simp only [h1, HMM.future, mul_sum]
    exact sum_comm
  have h1 : 0 < ∑ j, M.init j * M.future 0 t j := by
    obtain ⟨j, -, hj⟩ : ∃ j ∈ univ, (0 : ℝ) < M.init j := by
      by_contra hc'
      push Not at hc'
      have := sum_nonpos hc'
      rw [hV.init_sum] at this
      linarith
    exact sum_pos' (fun j _ => mul_nonneg (hV.init_nonneg j) (future_pos' hV hl hpos t 0 (by omega) j).le)
      ⟨j, mem_univ j, mul_pos hj (future_pos' hV hl hpos t 0 (by omega) j)⟩
  rw [← h0] at h1
  simp [hz] at h1

theorem smoothLaw_eq_midLaw (M : HMM (Fin (n + 1))) (r a b c : ℕ) (k : Fin (n + 1)) :
    M.smoothLaw (r + a + (b + c)) ⟨r + a, by omega⟩ k =
      midLaw (M.stepsFrom r a) (M.stepsFrom (r + a) b) (M.filterJoint r) (M.future (r + a + b) c) k := by
  have e1 : ∀ k, (M.stepsFrom r a).transpose.mulVec (M.filterJoint r) k = M.filterJoint (r + a) k := by
    intro k
    rw [HMM.filterJoint_steps]
    simp only [Matrix.mulVec, dotProduct, Matrix.transpose_apply]
    exact sum_congr rfl fun _ _ => mul_comm _ _
  have e2 : ∀ k, (M.stepsFrom (r + a) b).mulVec (M.future (r + a + b) c) k = M.future (r + a) (b + c) k := by
    intro k
    rw [HMM.future_steps]
    rfl
  unfold midLaw HMM.smoothLaw
  have e3 : M.evidence (r + a + (b + c)) = ∑ l, M.filterJoint (r + a) l * M.future (r + a) (b + c) l := by
    have : M.evidence (r + a + (b + c)) = ∑ k, M.smoothJoint (r + a + (b + c)) ⟨r + a, by omega⟩ k := by
      unfold HMM.evidence HMM.smoothJoint
      rw [sum_comm]
      exact sum_congr rfl fun x _ => by simp
    rw [this]
    exact sum_congr rfl fun k _ => M.smoothJoint_eq _ _ _
  rw [M.smoothJoint_eq, e3]
  simp only [e1, e2]

theorem steps_filterJoint (M : HMM (Fin (n + 1))) (r a : ℕ) (k : Fin (n + 1)) :
    (M.stepsFrom r a).transpose.mulVec (M.filterJoint r) k = M.filterJoint (r + a) k := by
  rw [HMM.filterJoint_steps]
  simp only [Matrix.mulVec, dotProduct, Matrix.transpose_apply]
  exact sum_congr rfl fun _ _ => mul_comm _ _

section laws
variable (hε : 0 ≤ ε) (hε1 : ε ≤ 1) (hV : Valid M) (hV' : Valid M')
include hε hε1 hV hV'

/-- The exact smoothing distributions of two models that agree on the `a` steps before a time and all steps after. -/
theorem smoothLaw_dist_past (r a c : ℕ)
    (hl : LikNonneg M (r + a + c)) (hl' : LikNonneg M' (r + a + c))
    (hpos : RowsPositive M (r + a + c)) (hpos' : RowsPositive M' (r + a + c))
    (hag : M.Agree M' r (r + a + c)) (hmix : M.Mixes ε r (r + a)) :
    ∑ k, |M.smoothLaw (r + a + c) ⟨r + a, by omega⟩ k -
      M'.smoothLaw (r + a + c) ⟨r + a, by omega⟩ k| ≤ 2 * (1 - ε) ^ a := by
  have eA : M.stepsFrom r a = M'.stepsFrom r a := HMM.Agree.stepsFrom fun t h1 h2 => hag t h1 (by omega)
  have eB : M.stepsFrom (r + a) c = M'.stepsFrom (r + a) c :=
    HMM.Agree.stepsFrom fun t h1 h2 => hag t (by omega) h2
  have e : ∀ M : HMM (Fin (n + 1)), ∀ k, M.smoothLaw (r + a + c) ⟨r + a, by omega⟩ k =
      midLaw (M.stepsFrom r a) (M.stepsFrom (r + a) c) (M.filterJoint r) (fun _ => 1) k := by
    intro M k
    have := smoothLaw_eq_midLaw M r a c 0 k
    refine this.trans ?_
    congr 1
    funext k
    exact HMM.future_zero M _ k
  have f1 : ∀ k, (M.stepsFrom (r + a) c).mulVec (fun _ => 1) k = M.future (r + a) c k := fun k => by
    simp [Matrix.mulVec, dotProduct, HMM.future]
  have g2 : ∀ k, (M.stepsFrom r a).transpose.mulVec (M'.filterJoint r) k = M'.filterJoint (r + a) k := by
    intro k; rw [eA]; exact steps_filterJoint M' r a k
  have p1 := filterJoint_nonneg' hV (t := r + a) fun t h j => hl t (by omega) j
  have p2 := filterJoint_nonneg' hV' (t := r + a) fun t h j => hl' t (by omega) j
  have q1 := future_pos' hV hl hpos c (r + a) le_rfl
  obtain ⟨j1, hj1⟩ := sum_filterJoint_pos hV hl hpos (t := r + a) (by omega)
  obtain ⟨j2, hj2⟩ := sum_filterJoint_pos hV' hl' hpos' (t := r + a) (by omega)
  simp only [e, ← eA, ← eB]
  refine midLaw_dist_past hε hε1 hV.trans_nonneg r a (fun t _ h2 j => hl t (by omega) j) hmix _ _ _ _
    (filterJoint_nonneg' hV fun t h j => hl t (by omega) j) (filterJoint_nonneg' hV' fun t h j => hl' t (by omega) j)
    (fun i => by rw [f1]; exact (q1 i).le) ?_ ?_
  · simp only [steps_filterJoint, f1]
    exact sum_pos' (fun i _ => mul_nonneg (p1 i) (q1 i).le) ⟨j1, mem_univ _, mul_pos hj1 (q1 _)⟩
  · simp only [g2, f1]
    exact sum_pos' (fun i _ => mul_nonneg (p2 i) (q1 i).le) ⟨j2, mem_univ _, mul_pos hj2 (q1 _)⟩

/-- The exact smoothing distributions of two models that agree up to `b` steps after a time. -/
theorem smoothLaw_dist_future (t b c c' : ℕ) (hinit : M.init = M'.init)
    (hl : LikNonneg M (t + (b + c))) (hl' : LikNonneg M' (t + (b + c')))
    (hpos : RowsPositive M (t + (b + c))) (hpos' : RowsPositive M' (t + (b + c')))
    (hag : M.Agree M' 0 (t + b)) (hmix : M.Mixes ε t (t + b)) :
    ∑ k, |M.smoothLaw (t + (b + c)) ⟨t, by omega⟩ k - M'.smoothLaw (t + (b + c')) ⟨t, by omega⟩ k| ≤
      2 * (1 - ε) ^ b := by
  have eA : M.filterJoint t = M'.filterJoint t := by
    funext k
    have h1 := HMM.filterJoint_steps M 0 t k
    have h2 := HMM.filterJoint_steps M' 0 t k
    have h3 : M.stepsFrom 0 t = M'.stepsFrom 0 t := HMM.Agree.stepsFrom fun t h1 h2 => hag t h1 (by omega)
    simp only [Nat.zero_add, HMM.filterJoint_zero] at h1 h2
    rw [h1, h2, h3, hinit]
  have eB : M.stepsFrom t b = M'.stepsFrom t b := HMM.Agree.stepsFrom fun t h1 h2 => hag t (by omega) h2
  have f1 : ∀ k, (M.stepsFrom t b).mulVec (M.future (t + b) c) k = M.future t (b + c) k :=
    fun k => (HMM.future_steps M _ _ _ _).symm
  have f2 : ∀ k, (M.stepsFrom t b).mulVec (M'.future (t + b) c') k = M'.future t (b + c') k :=
    fun k => by rw [eB]; exact (HMM.future_steps M' _ _ _ _).symm
  have p1 := filterJoint_nonneg' hV (t := t) fun t h j => hl t (by omega) j
  have q1 := future_pos' hV hl hpos (b + c) t le_rfl
  have q2 := future_pos' hV' hl' hpos' (b + c') t le_rfl
  obtain ⟨j1, hj1⟩ := sum_filterJoint_pos hV hl hpos (t := t) (by omega)
  have e := smoothLaw_eq_midLaw M t 0 b c
  have e' := smoothLaw_eq_midLaw M' t 0 b c'
  simp only [Nat.add_zero] at e e'
  simp only [e, e', ← eA, ← eB, HMM.stepsFrom]
  have g : ∀ k, (1 : Matrix (Fin (n + 1)) (Fin (n + 1)) ℝ).transpose.mulVec (M.filterJoint t) k =
      M.filterJoint t k := by simp
  refine midLaw_dist_future hε hε1 hV.trans_nonneg t b (fun t _ h2 j => hl t (by omega) j) hmix _ _ _ _
    (fun i => by rw [g]; exact p1 i) (fun i => (future_pos' hV hl hpos c (t + b) (by omega) i).le)
    (fun i => (future_pos' hV' hl' hpos' c' (t + b) (by omega) i).le) ?_ ?_
  · simp only [g, f1]
    exact sum_pos' (fun i _ => mul_nonneg (p1 i) (q1 i).le) ⟨j1, mem_univ _, mul_pos hj1 (q1 _)⟩
  · simp only [g, f2]
    exact sum_pos' (fun i _ => mul_nonneg (p1 i) (q2 i).le) ⟨j1, mem_univ _, mul_pos hj1 (q2 _)⟩

end laws

section runs
variable {getInit : Inp → Fin (n + 1) → Fl} {getTrans : Inp → Fin (n + 1) → Fin (n + 1) → Fl}
  {getObs : Inp → Fin (n + 1) → Fl} {inputs : List Inp}
  {getInit' : Inp' → Fin (n + 1) → Fl} {getTrans' : Inp' → Fin (n + 1) → Fin (n + 1) → Fl}
  {getObs' : Inp' → Fin (n + 1) → Fl} {inputs' : List Inp'}

/-- **C88** (filter). Two runs of the filter on models that agree on the steps from time `r` to time `t`, whatever
their initial distributions and their transitions and data before `r`, return at time `t` distributions whose total
difference is at most `2 (1 - ε)^(t - r)`, if the transitions of those steps mix with constant `ε`. -/
theorem filter_forgets (hε : 0 ≤ ε) (hε1 : ε ≤ 1) (hR : Represents M getInit getTrans getObs inputs)
    (hR' : Represents M' getInit' getTrans' getObs' inputs') (hV : Valid M) (hV' : Valid M')
    (hpos : RowsPositive M (inputs.length - 1)) (hpos' : RowsPositive M' (inputs'.length - 1))
    (r t : ℕ) (hrt : r ≤ t) (hag : M.Agree M' r t) (hmix : M.Mixes ε r t)
    (rng : Prng K) (rng' : Prng K') (key : Option K) (key' : Option K') (parallel parallel' : Bool)
    (states states' : List (FilterState n _))
    (h : (filter rng (buildFilter (K := K) getInit getTrans getObs) inputs parallel key).result = .ok states)
    (h' : (filter rng' (buildFilter (K := K') getInit' getTrans' getObs') inputs' parallel' key').result
      = .ok states') (s : FilterState n Inp) (s' : FilterState n Inp') (hs : states[t]? = some s)
    (hs' : states'[t]? = some s') :
    ∃ p p' : Fin (n + 1) → ℝ, (∀ k, s.dist k = fin (p k)) ∧ (∀ k, s'.dist k = fin (p' k)) ∧
      ∑ k, |p k - p' k| ≤ 2 * (1 - ε) ^ (t - r) := by
  have hne : inputs ≠ [] := by rintro rfl; rw [filter_empty_inputs] at h; cases h
  have hne' : inputs' ≠ [] := by rintro rfl; rw [filter_empty_inputs] at h'; cases h'
  obtain ⟨w, hw, hl, hall⟩ := discrete_filter_exact hR hV hne hpos rng key parallel
  obtain ⟨w', hw', hl', hall'⟩ := discrete_filter_exact hR' hV' hne' hpos' rng' key' parallel'
  rw [h, Except.ok.injEq] at hw
  rw [h', Except.ok.injEq] at hw'
  subst hw hw'
  have ht : t < inputs.length := by
    rw [← hl]; by_contra hc; rw [List.getElem?_eq_none (by omega)] at hs; cases hs
  have ht' : t < inputs'.length := by
    rw [← hl']; by_contra hc; rw [List.getElem?_eq_none (by omega)] at hs'; cases hs'
  refine ⟨_, _, (hall t s hs).1, (hall' t s' hs').1, ?_⟩
  obtain ⟨a, rfl⟩ : ∃ a, t = r + a := ⟨t - r, by omega⟩
  have := smoothLaw_dist_past hε hε1 hV hV' r a 0
    (fun u hu j => lik_nonneg_of_represents hR u (by omega) j)
    (fun u hu j => lik_nonneg_of_represents hR' u (by omega) j)
    (fun u hu => hpos u (by omega)) (fun u hu => hpos' u (by omega)) hag hmix
  rw [show r + a - r = a by omega]
  exact this

/-- **C88** (smoother, past). Two runs of the smoother of the same length on models that agree on all steps from
time `r` on return at each time `t ≥ r` distributions whose total difference is at most `2 (1 - ε)^(t - r)`, if the
transitions between `r` and `t` mix with constant `ε`. -/
theorem smoother_forgets_past (hε : 0 ≤ ε) (hε1 : ε ≤ 1) (hR : Represents M getInit getTrans getObs inputs)
    (hR' : Represents M' getInit' getTrans' getObs' inputs') (hV : Valid M) (hV' : Valid M')
    (T : ℕ) (hT : inputs.length = T + 1) (hT' : inputs'.length = T + 1) (hT1 : 1 ≤ T)
    (hpos : RowsPositive M T) (hpos' : RowsPositive M' T) (hreach : AllReachable M T) (hreach' : AllReachable M' T)
    (r t : ℕ) (hrt : r ≤ t) (hag : M.Agree M' r T) (hmix : M.Mixes ε r t)
    (rng rngS : Prng K) (rng' rngS' : Prng K') (key keyS : Option K) (key' keyS' : Option K')
    (parallel parallel' parallelS parallelS' : Bool) (dummy : Inp → Inp) (dummy' : Inp' → Inp')
    (fs : List (FilterState n Inp)) (fs' : List (FilterState n Inp'))
    (hfs : (filter rng (buildFilter (K := K) getInit getTrans getObs) inputs parallel key).result = .ok fs)
    (hfs' : (filter rng' (buildFilter (K := K') getInit' getTrans' getObs') inputs' parallel' key').result = .ok fs') :
    ∃ states states', (smoother rngS FilterState.modelInputs (fun u => .ok (dummy u))
        (buildSmoother dummy getTrans) fs none parallelS keyS).result = .ok states ∧
      (smoother rngS' FilterState.modelInputs (fun u => .ok (dummy' u))
        (buildSmoother dummy' getTrans') fs' none parallelS' keyS').result = .ok states' ∧
      states.length = T + 1 ∧ states'.length = T + 1 ∧
      ∀ s s', states[t]? = some s → states'[t]? = some s' →
        ∃ p p' : Fin (n + 1) → ℝ, (∀ k, s.dist k = fin (p k)) ∧ (∀ k, s'.dist k = fin (p' k)) ∧
          ∑ k, |p k - p' k| ≤ 2 * (1 - ε) ^ (t - r) := by
  obtain ⟨states, e, hl, hall⟩ := discrete_smoother_exact hR hV T hT hT1 hpos hreach rng rngS key keyS parallel
    parallelS dummy fs hfs
  obtain ⟨states', e', hl', hall'⟩ := discrete_smoother_exact hR' hV' T hT' hT1 hpos' hreach' rng' rngS' key' keyS'
    parallel' parallelS' dummy' fs' hfs'
  refine ⟨states, states', e, e', hl, hl', fun s s' hs hs' => ?_⟩
  have ht : t < T + 1 := by
    rw [← hl]; by_contra hc; rw [List.getElem?_eq_none (by omega)] at hs; cases hs
  refine ⟨_, _, (hall t ht s hs).1, (hall' t ht s' hs').1, ?_⟩
  obtain ⟨a, rfl⟩ : ∃ a, t = r + a := ⟨t - r, by omega⟩
  obtain ⟨c, rfl⟩ : ∃ c, T = r + a + c := ⟨T - (r + a), by omega⟩
  rw [show r + a - r = a by omega]
  exact smoothLaw_dist_past hε hε1 hV hV' r a c
    (fun u hu j => lik_nonneg_of_represents hR u (by omega) j)
    (fun u hu j => lik_nonneg_of_represents hR' u (by omega) j) hpos hpos' hag hmix

/-- **C88** (smoother, fixed lag). Two runs of the smoother, of any lengths, on models that have the same initial
distribution and agree on all steps up to time `t + b` return at time `t` distributions whose total difference is at
most `2 (1 - ε)^b`, if the `b` transitions after `t` mix with constant `ε`. Hence data far in the future can be left
out. -/
theorem smoother_fixed_lag (hε : 0 ≤ ε) (hε1 : ε ≤ 1) (hR : Represents M getInit getTrans getObs inputs)
    (hR' : Represents M' getInit' getTrans' getObs' inputs') (hV : Valid M) (hV' : Valid M')
    (T T' : ℕ) (hT : inputs.length = T + 1) (hT' : inputs'.length = T' + 1) (hT1 : 1 ≤ T) (hT1' : 1 ≤ T')
    (hpos : RowsPositive M T) (hpos' : RowsPositive M' T') (hreach : AllReachable M T)
    (hreach' : AllReachable M' T') (t b : ℕ) (htb : t + b ≤ T) (htb' : t + b ≤ T') (hinit : M.init = M'.init)
    (hag : M.Agree M' 0 (t + b)) (hmix : M.Mixes ε t (t + b))
    (rng rngS : Prng K) (rng' rngS' : Prng K') (key keyS : Option K) (key' keyS' : Option K')
    (parallel parallel' parallelS parallelS' : Bool) (dummy : Inp → Inp) (dummy' : Inp' → Inp')
    (fs : List (FilterState n Inp)) (fs' : List (FilterState n Inp'))
    (hfs : (filter rng (buildFilter (K := K) getInit getTrans getObs) inputs parallel key).result = .ok fs)
    (hfs' : (filter rng' (buildFilter (K := K') getInit' getTrans' getObs') inputs' parallel' key').result = .ok fs') :
    ∃ states states', (smoother rngS FilterState.modelInputs (fun u => .ok (dummy u))
        (buildSmoother dummy getTrans) fs none parallelS keyS).result = .ok states ∧
      (smoother rngS' FilterState.modelInputs (fun u => .ok (dummy' u))
        (buildSmoother dummy' getTrans') fs' none parallelS' keyS').result = .ok states' ∧
      states.length = T + 1 ∧ states'.length = T' + 1 ∧
      ∀ s s', states[t]? = some s → states'[t]? = some s' →
        ∃ p p' : Fin (n + 1) → ℝ, (∀ k, s.dist k = fin (p k)) ∧ (∀ k, s'.dist k = fin (p' k)) ∧
          ∑ k, |p k - p' k| ≤ 2 * (1 - ε) ^ b := by
  obtain ⟨states, e, hl, hall⟩ := discrete_smoother_exact hR hV T hT hT1 hpos hreach rng rngS key keyS parallel
    parallelS dummy fs hfs
  obtain ⟨states', e', hl', hall'⟩ := discrete_smoother_exact hR' hV' T' hT' hT1' hpos' hreach' rng' rngS' key' keyS'
    parallel' parallelS' dummy' fs' hfs'
  refine ⟨states, states', e, e', hl, hl', fun s s' hs hs' => ?_⟩
  refine ⟨_, _, (hall t (by omega) s hs).1, (hall' t (by omega) s' hs').1, ?_⟩
  obtain ⟨c, rfl⟩ : ∃ c, T = t + (b + c) := ⟨T - (t + b), by omega⟩
  obtain ⟨c', rfl⟩ : ∃ c, T' = t + (b + c) := ⟨T' - (t + b), by omega⟩
  exact smoothLaw_dist_future hε hε1 hV hV' t b c c' hinit
    (fun u hu j => lik_nonneg_of_represents hR u (by omega) j)
    (fun u hu j => lik_nonneg_of_represents hR' u (by omega) j) hpos hpos' hag hmix

end runs

/-- Non-vacuity: two-state models with different initial distributions and different data before time 3 that agree
from then on and mix with constant `1 / 2`. -/
example : ∃ M M' : HMM (Fin 2), Valid M ∧ Valid M' ∧ (∀ T, RowsPositive M T) ∧ (∀ T, RowsPositive M' T) ∧
    M.init ≠ M'.init ∧ M.lik 0 ≠ M'.lik 0 ∧ ∀ T, M.Agree M' 3 T ∧ M.Mixes (1 / 2) 3 T := by
  refine ⟨⟨![1, 0], fun _ => ![![2 / 3, 1 / 3], ![1 / 3, 2 / 3]], fun _ => ![1, 2]⟩,
    ⟨![0, 1], fun _ => ![![2 / 3, 1 / 3], ![1 / 3, 2 / 3]], fun t => if t < 3 then ![3, 1] else ![1, 2]⟩,
    ⟨?_, ?_, ?_, ?_⟩, ⟨?_, ?_, ?_, ?_⟩, ?_, ?_, ?_, ?_, fun T => ⟨?_, ?_⟩⟩
  · intro j; fin_cases j <;> norm_num
  · simp
  · intro t i j; fin_cases i <;> fin_cases j <;> norm_num
  · intro t i; fin_cases i <;> norm_num [Fin.sum_univ_succ]
  · intro j; fin_cases j <;> norm_num
  · simp
  · intro t i j; fin_cases i <;> fin_cases j <;> norm_num
  · intro t i; fin_cases i <;> norm_num [Fin.sum_univ_succ]
  · intro T t _ i; fin_cases i <;> norm_num [Fin.sum_univ_succ]
  · intro T t _ i; fin_cases i <;> by_cases h : t < 3 <;> norm_num [Fin.sum_univ_succ, h]
  · intro h; have := congrFun h 0; norm_num at this
  · intro h; have := congrFun h 0; norm_num at this
  · intro t h1 _; exact ⟨rfl, by simp [not_lt.2 h1]⟩
  · intro t _ _
    refine ⟨fun _ => 2 / 3, fun i j => ?_⟩
    fin_cases i <;> fin_cases j <;> norm_num

/-- **C88** (mixing is needed). Without mixing the filter never forgets: with a state that cannot change and
uninformative data, different initial distributions stay as different as they were. -/
theorem no_forgetting_without_mixing : ∃ M M' : HMM (Fin 2), Valid M ∧ Valid M' ∧ (∀ T, RowsPositive M T) ∧
    (∀ T, RowsPositive M' T) ∧ (∀ T, M.Agree M' 0 T) ∧ (∀ T, M.Mixes 0 0 T) ∧
    ∀ t, ∑ k, |M.filterLaw t k - M'.filterLaw t k| = 2 := by
  have key : ∀ (v : Fin 2 → ℝ), ∑ j, v j = 1 → ∀ t k,
      (HMM.mk v (fun _ i j => if i = j then 1 else 0) fun _ _ => 1 : HMM (Fin 2)).filterLaw t k = v k := by
    intro v hv t k
    have h : ∀ t k, (HMM.mk v (fun _ i j => if i = j then 1 else 0) fun _ _ => 1 : HMM (Fin 2)).filterJoint t k
        = v k := by
      intro t
      induction t with
      | zero => intro k; exact HMM.filterJoint_zero _ k
      | succ t ih => intro k; rw [HMM.filterJoint_succ]; simp [ih, HMM.stepMat]
    rw [HMM.filterLaw, HMM.evidence_eq_sum]
    simp only [h, hv, div_one]
  refine ⟨⟨![1, 0], fun _ i j => if i = j then 1 else 0, fun _ _ => 1⟩,
    ⟨![0, 1], fun _ i j => if i = j then 1 else 0, fun _ _ => 1⟩,
    ⟨?_, ?_, ?_, ?_⟩, ⟨?_, ?_, ?_, ?_⟩, ?_, ?_, fun T => ?_, fun T => ?_, fun t => ?_⟩
  · intro j; fin_cases j <;> norm_num
  · simp
  · intro t i j; dsimp only; split_ifs <;> norm_num
  · intro t i; simp
  · intro j; fin_cases j <;> norm_num
  · simp
  · intro t i j; dsimp only; split_ifs <;> norm_num
  · intro t i; simp
  · intro T t _ i; simp
  · intro T t _ i; simp
  · intro t _ _; exact ⟨rfl, rfl⟩
  · intro t _ _
    refine ⟨fun _ => 1, fun i j => ?_⟩
    dsimp only; split_ifs <;> norm_num
  · simp only [key _ (show ∑ j, (![1, 0] : Fin 2 → ℝ) j = 1 by simp),
      key _ (show ∑ j, (![0, 1] : Fin 2 → ℝ) j = 1 by simp)]
    norm_num [Fin.sum_univ_succ]

end Cuthbert.Discrete
