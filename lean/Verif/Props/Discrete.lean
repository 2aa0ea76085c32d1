import Verif.Lemmas.Discrete
import Verif.Props.Interface
import Mathlib.Tactic.FinCases
import Mathlib.Tactic.NormNum

/-!
# Properties C09 - C14: discrete hidden Markov models

The specification is the path-sum semantics of `Verif/Spec/HMM.lean`.
-/

namespace Cuthbert.Discrete
open Cuthbert Fl Spec

variable {n : ℕ} {Inp K : Type*}

/-- The user's callbacks, evaluated on the given inputs, describe the hidden Markov model `M`: the
input at position 0 gives the initial distribution, the one at position `t + 1` gives the transition
from `t` to `t + 1` and the log-likelihoods (finite or `-∞`) of the observation at `t + 1`. -/
structure Represents (M : HMM (Fin (n + 1))) (getInit : Inp → Fin (n + 1) → Fl)
    (getTrans : Inp → Fin (n + 1) → Fin (n + 1) → Fl) (getObs : Inp → Fin (n + 1) → Fl)
    (inputs : List Inp) : Prop where
  init : ∀ u, inputs[0]? = some u → ∀ j, getInit u j = fin (M.init j)
  trans : ∀ t u, inputs[t + 1]? = some u → ∀ i j, getTrans u i j = fin (M.trans t i j)
  obs : ∀ t u, inputs[t + 1]? = some u → ∀ j, (getObs u j).IsLog ∧ lik (getObs u j) = M.lik t j

/-- Probabilities are probabilities. -/
structure Valid (M : HMM (Fin (n + 1))) : Prop where
  init_nonneg : ∀ j, 0 ≤ M.init j
  init_sum : ∑ j, M.init j = 1
  trans_nonneg : ∀ t i j, 0 ≤ M.trans t i j
  trans_sum : ∀ t i, ∑ j, M.trans t i j = 1

/-- `p(y_{t+1} | x_t = i) > 0` for every state `i`, for the first `T` steps. -/
def RowsPositive (M : HMM (Fin (n + 1))) (T : ℕ) : Prop :=
  ∀ t, t < T → ∀ i, 0 < ∑ j, M.trans t i j * M.lik t j

/-- A scan element as it occurs in the filter: rows of `f` are probability vectors, `log_g` is
finite. -/
def WellFormed (e : FilterScanElement n) : Prop :=
  ∃ (F : Fin (n + 1) → Fin (n + 1) → ℝ) (g : Fin (n + 1) → ℝ),
    (∀ i j, e.f i j = fin (F i j)) ∧ (∀ i j, 0 ≤ F i j) ∧ (∀ i, ∑ j, F i j = 1) ∧
      ∀ i, e.logG i = fin (g i)

theorem wellFormed_iff (e : FilterScanElement n) :
    WellFormed e ↔ ∃ G, Good G ∧ e = ofMat G := by
  constructor
  · rintro ⟨F, g, hf, hn, hs, hg⟩
    have hr : ∀ i, rowSum (fun i j => Real.exp (g i) * F i j) i = Real.exp (g i) := by
      intro i; unfold rowSum; rw [← Finset.mul_sum, hs i, mul_one]
    refine ⟨fun i j => Real.exp (g i) * F i j, ⟨fun i j => ?_, fun i => ?_⟩, ?_⟩
    · exact mul_nonneg (Real.exp_nonneg _) (hn i j)
    · rw [hr]; exact Real.exp_pos _
    · cases e with
      | mk f lg =>
        unfold ofMat
        congr 1
        · funext i j
          refine (hf i j).trans ?_
          simp only [hr]
          rw [mul_div_cancel_left₀ _ (Real.exp_ne_zero _)]
        · funext i
          refine (hg i).trans ?_
          simp only [hr, Real.log_exp]
  · rintro ⟨G, hG, rfl⟩
    refine ⟨fun i j => G i j / rowSum G i, fun i => Real.log (rowSum G i), fun _ _ => rfl,
      fun i j => div_nonneg (hG.nonneg i j) (hG.pos i).le, fun i => ?_, fun _ => rfl⟩
    rw [← Finset.sum_div]
    exact div_self (hG.pos i).ne'

/-! ## C10 -/

/-- **C10.** The discrete filtering operator is associative on well-formed elements, and well-formed
elements are closed under it. -/
theorem discrete_filtering_operator_assoc (a b c : FilterScanElement n) (ha : WellFormed a)
    (hb : WellFormed b) (hc : WellFormed c) :
    filteringOperator (filteringOperator a b) c = filteringOperator a (filteringOperator b c) ∧
      WellFormed (filteringOperator a b) := by
  obtain ⟨A, hA, rfl⟩ := (wellFormed_iff a).mp ha
  obtain ⟨B, hB, rfl⟩ := (wellFormed_iff b).mp hb
  obtain ⟨C, hC, rfl⟩ := (wellFormed_iff c).mp hc
  constructor
  · rw [filteringOperator_ofMat hA hB, filteringOperator_ofMat (good_mul hA hB) hC,
      filteringOperator_ofMat hB hC, filteringOperator_ofMat hA (good_mul hB hC), Matrix.mul_assoc]
  · rw [filteringOperator_ofMat hA hB]
    exact (wellFormed_iff _).mpr ⟨_, good_mul hA hB, rfl⟩

/-- Non-vacuity for C10: a two-state element with a zero entry. -/
example : WellFormed (n := 1) ⟨fun i j => if i = 0 ∧ j = 0 then fin 1 else
    if i = 0 then fin 0 else fin (1 / 2), fun i => fin i⟩ := by
  refine ⟨fun i j => if i = 0 ∧ j = 0 then 1 else if i = 0 then 0 else 1 / 2, fun i => i, ?_, ?_,
    ?_, fun _ => rfl⟩
  · intro i j; dsimp only; split_ifs <;> rfl
  · intro i j; dsimp only; split_ifs <;> norm_num
  · intro i; fin_cases i <;> simp

/-! ## C09 -/

section exact
variable {M : HMM (Fin (n + 1))} {getInit : Inp → Fin (n + 1) → Fl}
  {getTrans : Inp → Fin (n + 1) → Fin (n + 1) → Fl} {getObs : Inp → Fin (n + 1) → Fl}
  {inputs : List Inp}

theorem lik_nonneg_of_represents (hR : Represents M getInit getTrans getObs inputs) (t : ℕ)
    (ht : t + 1 < inputs.length) (j : Fin (n + 1)) : 0 ≤ M.lik t j := by
  rw [← (hR.obs t _ (List.getElem?_eq_getElem ht) j).2]
  exact lik_nonneg _

theorem stepMat_good (hR : Represents M getInit getTrans getObs inputs) (hV : Valid M)
    (T : ℕ) (hpos : RowsPositive M T) (t : ℕ) (ht : t + 1 < inputs.length) (htT : t < T) :
    Good (M.stepMat t) :=
  ⟨fun i j => mul_nonneg (hV.trans_nonneg t i j) (lik_nonneg_of_represents hR t ht j),
    fun i => hpos t htT i⟩

theorem filterPrepare_represents (hR : Represents M getInit getTrans getObs inputs)
    (T : ℕ) (hpos : RowsPositive M T) (t : ℕ) (u : Inp) (hu : inputs[t + 1]? = some u)
    (htT : t < T) :
    filterPrepare getTrans getObs u = ⟨ofMat (M.stepMat t), u⟩ := by
  have hl : ∀ j, lik (getObs u j) = M.lik t j := fun j => (hR.obs t u hu j).2
  rw [filterPrepare_eq getTrans getObs u (fun i j => M.trans t i j) (hR.trans t u hu)
    (fun j => (hR.obs t u hu j).1) (by intro i; simp only [hl]; exact hpos t htT i)]
  simp only [hl]
  rfl

theorem good_init (hV : Valid M) : Good (fun _ k => M.filterJoint 0 k :
    Matrix (Fin (n + 1)) (Fin (n + 1)) ℝ) := by
  refine ⟨fun i j => ?_, fun i => ?_⟩
  · rw [M.filterJoint_zero]; exact hV.init_nonneg j
  · simp only [rowSum, M.filterJoint_zero, hV.init_sum]; exact one_pos

theorem rows_mul_stepMat (t : ℕ) : (Matrix.of fun _ k => M.filterJoint t k :
    Matrix (Fin (n + 1)) (Fin (n + 1)) ℝ) * M.stepMat t = fun _ k => M.filterJoint (t + 1) k := by
  funext i k
  rw [Matrix.mul_apply, M.filterJoint_succ]
  rfl

/-- The invariant of a filter run. -/
theorem run_invariant (hR : Represents M getInit getTrans getObs inputs) (hV : Valid M)
    (T : ℕ) (hpos : RowsPositive M T)
    {states : List (FilterState n Inp)} {keys : ℕ → Option K}
    (hrun : IsOnlineFilterRun (buildFilter (K := K) getInit getTrans getObs).initPrepare
      (buildFilter (K := K) getInit getTrans getObs).filterPrepare
      (buildFilter (K := K) getInit getTrans getObs).filterCombine inputs keys states)
    (t : ℕ) (ht : t < inputs.length) (htT : t ≤ T) :
    states[t]? = some ⟨ofMat (fun _ k => M.filterJoint t k), inputs[t]⟩ ∧
      Good (fun _ k => M.filterJoint t k : Matrix (Fin (n + 1)) (Fin (n + 1)) ℝ) := by
  induction t with
  | zero =>
    have hu := List.getElem?_eq_getElem ht
    refine ⟨?_, good_init hV⟩
    rw [hrun.first _ hu]
    simp only [buildFilter]
    rw [initPrepare_eq getInit _ M.init (hR.init _ hu) hV.init_sum]
    simp only [M.filterJoint_zero]
  | succ t ih =>
    obtain ⟨ih1, ih2⟩ := ih (by omega) (by omega)
    have hu := List.getElem?_eq_getElem ht
    have hg := stepMat_good hR hV T hpos t ht (by omega)
    have hmul := rows_mul_stepMat (M := M) t
    refine ⟨?_, ?_⟩
    · rw [hrun.step t _ _ hu ih1]
      simp only [buildFilter]
      rw [filterPrepare_represents hR T hpos t _ hu (by omega)]
      simp only [filterCombine]
      rw [filteringOperator_ofMat ih2 hg]
      exact congrArg (fun G => some (FilterState.mk (ofMat G) inputs[t + 1])) hmul
    · rw [← hmul]; exact good_mul ih2 hg

theorem discrete_filter_parallel_eq (hR : Represents M getInit getTrans getObs inputs)
    (hV : Valid M) (hpos : RowsPositive M (inputs.length - 1)) (rng : Prng K) (key : Option K)
    (parallel : Bool) :
    (filter rng (buildFilter (K := K) getInit getTrans getObs) inputs parallel key).result =
    (filter rng (buildFilter (K := K) getInit getTrans getObs) inputs false key).result := by
  cases parallel with
  | false => rfl
  | true =>
    refine filter_parallel_eq_sequential rng _ _ _ (fun s => WellFormed s.elem) ?_ ?_ ?_ ?_
    · intro u hu k
      simp only [buildFilter]
      rw [initPrepare_eq getInit _ M.init (hR.init _ hu) hV.init_sum]
      refine (wellFormed_iff _).mpr ⟨_, ?_, rfl⟩
      have := good_init hV
      simpa only [M.filterJoint_zero] using this
    · intro t u hu k
      have ht : t + 1 < inputs.length := by
        by_contra h; rw [List.getElem?_eq_none (by omega)] at hu; cases hu
      simp only [buildFilter]
      rw [filterPrepare_represents hR _ hpos t u hu (by omega)]
      exact (wellFormed_iff _).mpr ⟨_, stepMat_good hR hV _ hpos t ht (by omega), rfl⟩
    · intro a b ha hb
      exact (discrete_filtering_operator_assoc a.elem b.elem b.elem ha hb hb).2
    · intro a b c ha hb hc
      simp only [buildFilter, filterCombine]
      rw [(discrete_filtering_operator_assoc a.elem b.elem c.elem ha hb hc).1]

/-- **C09.** For every finite hidden Markov model in which every state gives every observation a
positive one-step probability, the filter (sequential or parallel) returns at every time `t` the
filtering distribution `P(x_t = · | y_1..y_t)` and `log p(y_1..y_t)` defined by sums over all state
paths, and stores the inputs of that time. -/
theorem discrete_filter_exact (hR : Represents M getInit getTrans getObs inputs) (hV : Valid M)
    (hne : inputs ≠ []) (hpos : RowsPositive M (inputs.length - 1)) (rng : Prng K)
    (key : Option K) (parallel : Bool) :
    ∃ states, (filter rng (buildFilter (K := K) getInit getTrans getObs) inputs parallel key).result
        = .ok states ∧ states.length = inputs.length ∧
      ∀ t s, states[t]? = some s →
        (∀ k, s.dist k = fin (M.filterLaw t k)) ∧
        0 < M.evidence t ∧ s.logNormalizingConstant = fin (Real.log (M.evidence t)) ∧
        inputs[t]? = some s.modelInputs := by
  rw [discrete_filter_parallel_eq hR hV hpos rng key parallel]
  obtain ⟨states, h, hrun⟩ := filter_sequential_is_online_run rng
    (buildFilter (K := K) getInit getTrans getObs) inputs key hne
  refine ⟨states, h, hrun.length_eq, ?_⟩
  intro t s hs
  have ht : t < inputs.length := by
    rw [← hrun.length_eq]
    by_contra hc; rw [List.getElem?_eq_none (by omega)] at hs; cases hs
  obtain ⟨h1, h2⟩ := run_invariant hR hV _ hpos hrun t ht (by omega)
  rw [hs, Option.some.injEq] at h1
  subst h1
  have he : ∀ i, rowSum (fun _ k => M.filterJoint t k :
      Matrix (Fin (n + 1)) (Fin (n + 1)) ℝ) i = M.evidence t := by
    intro i; rw [M.evidence_eq_sum]; rfl
  refine ⟨fun k => ?_, ?_, ?_, List.getElem?_eq_getElem ht⟩
  · simp only [FilterState.dist, ofMat, he]; rfl
  · rw [← he 0]; exact h2.pos 0
  · simp only [FilterState.logNormalizingConstant, ofMat, he]

/-! ## C11 -/

/-- **C11** (normalisation). The distributions that the filter returns are probability vectors. -/
theorem discrete_filter_normalised (hR : Represents M getInit getTrans getObs inputs)
    (hV : Valid M) (hpos : RowsPositive M (inputs.length - 1)) (rng : Prng K)
    (key : Option K) (parallel : Bool) (states : List (FilterState n Inp))
    (h : (filter rng (buildFilter (K := K) getInit getTrans getObs) inputs parallel key).result
      = .ok states) (t : ℕ) (s : FilterState n Inp) (hs : states[t]? = some s) :
    ∃ p : Fin (n + 1) → ℝ, (∀ k, s.dist k = fin (p k)) ∧ (∀ k, 0 ≤ p k) ∧ ∑ k, p k = 1 := by
  have hne : inputs ≠ [] := by
    rintro rfl; rw [filter_empty_inputs] at h; cases h
  rw [discrete_filter_parallel_eq hR hV hpos rng key parallel] at h
  obtain ⟨states', h', hrun⟩ := filter_sequential_is_online_run rng
    (buildFilter (K := K) getInit getTrans getObs) inputs key hne
  rw [h, Except.ok.injEq] at h'
  subst h'
  have ht : t < inputs.length := by
    rw [← hrun.length_eq]
    by_contra hc; rw [List.getElem?_eq_none (by omega)] at hs; cases hs
  obtain ⟨h1, h2⟩ := run_invariant hR hV _ hpos hrun t ht (by omega)
  rw [hs, Option.some.injEq] at h1
  subst h1
  refine ⟨_, fun k => rfl, fun k => div_nonneg (h2.nonneg 0 k) (h2.pos 0).le, ?_⟩
  rw [← Finset.sum_div]
  exact div_self (h2.pos 0).ne'

end exact

theorem add_fin_sub_add_fin (x y : Fl) (a : ℝ) : (x + fin a) - (y + fin a) = x - y := by
  cases x <;> cases y <;> simp [Fl.add_def, Fl.sub_def, Fl.add, Fl.neg_def, Fl.neg]

theorem max_add_fin (x y : Fl) (a : ℝ) :
    Fl.max (x + fin a) (y + fin a) = Fl.max x y + fin a := by
  cases x <;> cases y <;> simp [Fl.add_def, Fl.add, Fl.max, max_add_add_right]

theorem vmax_add_fin (lls : Fin (n + 1) → Fl) (a : ℝ) :
    vmax (fun j => lls j + fin a) = vmax lls + fin a := by
  unfold vmax
  have : ∀ s : Finset (Fin (n + 1)), s.fold Fl.max ninf (fun j => lls j + fin a) =
      s.fold Fl.max ninf lls + fin a := by
    intro s
    induction s using Finset.induction_on with
    | empty => rfl
    | insert b s hb ih => rw [Finset.fold_insert hb, Finset.fold_insert hb, ih, max_add_fin]
  exact this _

theorem conditionOnObs_shift (p : Fin (n + 1) → Fin (n + 1) → Fl) (lls : Fin (n + 1) → Fl)
    (a : ℝ) : conditionOnObs p (fun j => lls j + fin a) =
      ((conditionOnObs p lls).1, fun i => (conditionOnObs p lls).2 i + fin a) := by
  unfold conditionOnObs
  simp only [vmax_add_fin, add_fin_sub_add_fin, add_assoc]

/-- **C11** (shift invariance). Adding a constant `a t` to all log-likelihoods of step `t + 1` changes no
distribution and adds the constants of the steps so far to the log normalising constant. No
assumption on the model: also with `-inf`, NaN or zero probabilities. -/
theorem discrete_filter_shift (getInit : Inp → Fin (n + 1) → Fl)
    (getTrans : Inp → Fin (n + 1) → Fin (n + 1) → Fl) (getObs getObs' : Inp → Fin (n + 1) → Fl)
    (inputs : List Inp) (a : ℕ → ℝ)
    (hshift : ∀ t u, inputs[t + 1]? = some u → ∀ j, getObs' u j = getObs u j + fin (a t))
    (rng : Prng K) (key : Option K) (states states' : List (FilterState n Inp))
    (h : (filter rng (buildFilter (K := K) getInit getTrans getObs) inputs false key).result
      = .ok states)
    (h' : (filter rng (buildFilter (K := K) getInit getTrans getObs') inputs false key).result
      = .ok states')
    (t : ℕ) (s s' : FilterState n Inp) (hs : states[t]? = some s) (hs' : states'[t]? = some s') :
    s'.dist = s.dist ∧
      s'.logNormalizingConstant = s.logNormalizingConstant + fin (∑ r ∈ Finset.range t, a r) := by
  have hne : inputs ≠ [] := by
    rintro rfl; rw [filter_empty_inputs] at h; cases h
  obtain ⟨w, hw, r⟩ := filter_sequential_is_online_run rng
    (buildFilter (K := K) getInit getTrans getObs) inputs key hne
  obtain ⟨w', hw', r'⟩ := filter_sequential_is_online_run rng
    (buildFilter (K := K) getInit getTrans getObs') inputs key hne
  rw [h, Except.ok.injEq] at hw
  rw [h', Except.ok.injEq] at hw'
  subst hw hw'
  have main : ∀ t s s', states[t]? = some s → states'[t]? = some s' →
      s'.elem.f = s.elem.f ∧
        ∀ i, s'.elem.logG i = s.elem.logG i + fin (∑ r ∈ Finset.range t, a r) := by
    intro t
    induction t with
    | zero =>
      intro s s' hs hs'
      have hu := List.getElem?_eq_getElem (List.length_pos_iff.mpr hne)
      rw [r.first _ hu, Option.some.injEq] at hs
      rw [r'.first _ hu, Option.some.injEq] at hs'
      subst hs hs'
      refine ⟨rfl, fun i => ?_⟩
      simp [buildFilter, initPrepare]
    | succ t ih =>
      intro s s' hs hs'
      have ht : t + 1 < inputs.length := by
        rw [← r.length_eq]
        by_contra hc; rw [List.getElem?_eq_none (by omega)] at hs; cases hs
      have l1 := r.length_eq
      have l2 := r'.length_eq
      have e1 : states[t]? = some states[t] := List.getElem?_eq_getElem (by omega)
      have e2 : states'[t]? = some states'[t] := List.getElem?_eq_getElem (by omega)
      obtain ⟨ih1, ih2⟩ := ih _ _ e1 e2
      have hu := List.getElem?_eq_getElem ht
      rw [r.step t _ _ hu e1, Option.some.injEq] at hs
      rw [r'.step t _ _ hu e2, Option.some.injEq] at hs'
      have ho : getObs' inputs[t + 1] = fun j => getObs inputs[t + 1] j + fin (a t) := by
        funext j; exact hshift t _ hu j
      subst hs hs'
      simp only [buildFilter, filterCombine, filterPrepare, filteringOperator, ho,
        conditionOnObs_shift, ih1, ih2, true_and]
      intro i
      rw [Finset.sum_range_succ, ← fin_add]
      abel
  obtain ⟨m1, m2⟩ := main t s s' hs hs'
  exact ⟨congrFun m1 0, m2 0⟩

/-! ## C14 -/

section nan
variable {M : HMM (Fin (n + 1))} {getInit : Inp → Fin (n + 1) → Fl}
  {getTrans : Inp → Fin (n + 1) → Fin (n + 1) → Fl} {getObs : Inp → Fin (n + 1) → Fl}
  {inputs : List Inp}

/-- A row without evidence becomes NaN. -/
theorem conditionOnObs_nan (p : Fin (n + 1) → Fin (n + 1) → ℝ) (hp : ∀ i j, 0 ≤ p i j)
    (lls : Fin (n + 1) → Fl) (hl : ∀ j, (lls j).IsLog) (i : Fin (n + 1))
    (hz : ∑ j, p i j * lik (lls j) = 0) (k : Fin (n + 1)) :
    (conditionOnObs (fun i j => fin (p i j)) lls).1 i k = nan := by
  have hz' : ∀ j, p i j * lik (lls j) = 0 := fun j =>
    (Finset.sum_eq_zero_iff_of_nonneg
      (fun j _ => mul_nonneg (hp i j) (lik_nonneg _))).mp hz j (Finset.mem_univ j)
  by_cases hex : ∃ j, lls j ≠ ninf
  · obtain ⟨m, hm⟩ := vmax_fin lls hl hex
    have hA : ∀ j, fin (p i j) * Fl.exp (lls j - vmax lls) = fin 0 := by
      intro j
      rw [hm, exp_sub_fin (hl j), fin_mul, ← mul_assoc, hz' j, zero_mul]
    unfold conditionOnObs
    simp only [hA]
    rw [sum_fin]
    simp [Fl.div_def, Fl.div, infOfSign]
  · have hall : ∀ j, lls j = ninf := fun j => by by_contra h; exact hex ⟨j, h⟩
    unfold conditionOnObs
    simp only [vmax_ninf lls hall, hall]
    have : (ninf - ninf : Fl) = nan := rfl
    simp [this]

/-- **C14** (exactly when the filter is well defined). For a model given by non-negative probabilities
and log-likelihoods that are finite or `-∞`, the distribution returned at time `t` is finite if and
only if `p(y_{s+1} | x_s = i) > 0` for every earlier step `s < t` and *every* state `i`, reachable or
not. Otherwise all its entries are NaN. -/
theorem discrete_filter_finite_iff (hR : Represents M getInit getTrans getObs inputs) (hV : Valid M)
    (rng : Prng K) (key : Option K) (states : List (FilterState n Inp))
    (h : (filter rng (buildFilter (K := K) getInit getTrans getObs) inputs false key).result
      = .ok states) (t : ℕ) (s : FilterState n Inp) (hs : states[t]? = some s) :
    ((∀ k, (s.dist k).IsFin) ↔ RowsPositive M t) ∧
      (¬ RowsPositive M t → ∀ k, s.dist k = nan) := by
  have hne : inputs ≠ [] := by
    rintro rfl; rw [filter_empty_inputs] at h; cases h
  obtain ⟨w, hw, r⟩ := filter_sequential_is_online_run rng
    (buildFilter (K := K) getInit getTrans getObs) inputs key hne
  rw [h, Except.ok.injEq] at hw
  subst hw
  have hlen := r.length_eq
  have hbad : ∀ t s, states[t]? = some s → ¬ RowsPositive M t → ∀ i k, s.elem.f i k = nan := by
    intro t
    induction t with
    | zero => intro s _ hn; exact absurd (fun r hr => absurd hr (by omega)) hn
    | succ t ih =>
      intro s hs hn
      have ht : t + 1 < inputs.length := by
        by_contra hc; rw [List.getElem?_eq_none (by omega)] at hs; cases hs
      have hu := List.getElem?_eq_getElem ht
      have e1 : states[t]? = some states[t] := List.getElem?_eq_getElem (by omega)
      rw [r.step t _ _ hu e1, Option.some.injEq] at hs
      subst hs
      intro i k
      simp only [buildFilter, filterCombine, filteringOperator]
      by_cases hprev : RowsPositive M t
      · -- the bad row is in the current step
        obtain ⟨b, hb⟩ : ∃ b, ¬ 0 < ∑ j, M.trans t b j * M.lik t j := by
          by_contra hc
          push Not at hc
          apply hn
          intro q hq b
          rcases Nat.lt_or_ge q t with hqt | hqt
          · exact hprev q hqt b
          · have : q = t := by omega
            subst this; exact hc b
        have hnn : 0 ≤ ∑ j, M.trans t b j * M.lik t j := Finset.sum_nonneg fun j _ =>
          mul_nonneg (hV.trans_nonneg t b j) (lik_nonneg_of_represents hR t ht j)
        have hz : ∑ j, M.trans t b j * M.lik t j = 0 := le_antisymm (not_lt.mp hb) hnn
        have hl : ∀ j, lik (getObs inputs[t + 1] j) = M.lik t j := fun j => (hR.obs t _ hu j).2
        have htr : getTrans inputs[t + 1] = fun i j => fin (M.trans t i j) := by
          funext i j; exact hR.trans t _ hu i j
        have hnan := conditionOnObs_nan (M.trans t) (hV.trans_nonneg t) (getObs inputs[t + 1])
          (fun j => (hR.obs t _ hu j).1) b (by simp only [hl]; exact hz) k
        refine sum_nan _ _ b (Finset.mem_univ b) ?_
        simp only [filterPrepare, htr, hnan, mul_nan]
      · -- the state was NaN already
        have := ih _ e1 hprev i 0
        refine sum_nan _ _ 0 (Finset.mem_univ _) ?_
        simp only [conditionOnObs, this, nan_mul, nan_div]
  refine ⟨⟨fun hfin => ?_, fun hp k => ?_⟩, fun hn k => hbad t s hs hn 0 k⟩
  · by_contra hn
    have := hfin 0
    rw [FilterState.dist, hbad t s hs hn 0 0] at this
    exact this
  · have ht : t < inputs.length := by
      by_contra hc; rw [List.getElem?_eq_none (by omega)] at hs; cases hs
    obtain ⟨h1, -⟩ := run_invariant hR hV t hp r t ht le_rfl
    rw [hs, Option.some.injEq] at h1
    subst h1
    trivial

end nan

/-- A two-state model: both states equally likely at the start, the state never changes, and the
observation at time 1 is impossible in state 1 and certain in state 0. -/
noncomputable def frozenModel : HMM (Fin 2) where
  init := fun _ => 1 / 2
  trans := fun _ i j => if i = j then 1 else 0
  lik := fun _ j => if j = 0 then 1 else 0

theorem frozenModel_valid : Valid (n := 1) frozenModel := by
  refine ⟨fun j => ?_, ?_, fun t i j => ?_, fun t i => ?_⟩
  · simp [frozenModel]
  · simp [frozenModel]
  · simp only [frozenModel]; split_ifs <;> norm_num
  · simp [frozenModel]

/-- Inputs for `frozenModel`: the same for both times. -/
theorem frozenModel_represents : Represents (n := 1) (Inp := Unit) frozenModel
    (fun _ _ => fin (1 / 2)) (fun _ i j => if i = j then fin 1 else fin 0)
    (fun _ j => if j = 0 then fin 0 else ninf) [(), ()] := by
  refine ⟨fun _ _ _ => rfl, fun t u _ i j => ?_, fun t u _ j => ?_⟩
  · simp only [frozenModel]; split_ifs <;> rfl
  · simp only [frozenModel]; split_ifs <;> simp [IsLog, lik]

/-- **C14 is false as stated**: in `frozenModel` the observation has probability 1/2, yet the filter
returns NaN for the filtering distribution at time 1, because the observation is impossible from
state 1. -/
theorem discrete_filter_nan_despite_positive_evidence (rng : Prng K) (key : Option K)
    (states : List (FilterState 1 Unit))
    (h : (filter rng (buildFilter (K := K) (fun _ _ => fin (1 / 2))
      (fun _ i j => if i = j then fin 1 else fin 0)
      (fun _ j => if j = 0 then fin 0 else ninf)) [(), ()] false key).result = .ok states)
    (s : FilterState 1 Unit) (hs : states[1]? = some s) :
    frozenModel.evidence 1 = 1 / 2 ∧ ∀ k, s.dist k = nan := by
  constructor
  · rw [HMM.evidence_eq_sum]
    simp only [HMM.filterJoint_succ, HMM.filterJoint_zero, HMM.stepMat, frozenModel,
      Fin.sum_univ_two]
    norm_num
  · refine (discrete_filter_finite_iff frozenModel_represents frozenModel_valid rng key states h 1 s
      hs).2 ?_
    intro hp
    have := hp 0 (by norm_num) 1
    simp [frozenModel] at this

/-- **C14** (what holds): if every state gives every observation positive probability then all returned
distributions and log normalising constants are finite. Missing from the full statement: models
with `p(y_1..y_T) > 0` in which some single state excludes some observation, where the code returns
NaN (`discrete_filter_nan_despite_positive_evidence`). -/
theorem discrete_filter_well_defined_partial {M : HMM (Fin (n + 1))}
    {getInit : Inp → Fin (n + 1) → Fl} {getTrans : Inp → Fin (n + 1) → Fin (n + 1) → Fl}
    {getObs : Inp → Fin (n + 1) → Fl} {inputs : List Inp}
    (hR : Represents M getInit getTrans getObs inputs) (hV : Valid M)
    (hpos : RowsPositive M (inputs.length - 1)) (rng : Prng K) (key : Option K) (parallel : Bool)
    (states : List (FilterState n Inp))
    (h : (filter rng (buildFilter (K := K) getInit getTrans getObs) inputs parallel key).result
      = .ok states) (t : ℕ) (s : FilterState n Inp) (hs : states[t]? = some s) :
    (∀ k, (s.dist k).IsFin) ∧ s.logNormalizingConstant.IsFin := by
  have hne : inputs ≠ [] := by
    rintro rfl; rw [filter_empty_inputs] at h; cases h
  obtain ⟨w, hw, -, hall⟩ := discrete_filter_exact hR hV hne hpos rng key parallel
  rw [h, Except.ok.injEq] at hw
  subst hw
  obtain ⟨h1, -, h3, -⟩ := hall t s hs
  refine ⟨fun k => by rw [h1 k]; trivial, by rw [h3]; trivial⟩

/-- Non-vacuity for C09, C11 and C14: the two-state model with uniform transitions and one
impossible observation has positive rows although a log-likelihood is `-∞`. -/
example : ∃ M : HMM (Fin 2), Valid (n := 1) M ∧ RowsPositive (n := 1) M 5 ∧
    Represents (n := 1) (Inp := Unit) M (fun _ _ => fin (1 / 2)) (fun _ _ _ => fin (1 / 2))
      (fun _ j => if j = 0 then fin 0 else ninf) (List.replicate 6 ()) := by
  refine ⟨⟨fun _ => 1 / 2, fun _ _ _ => 1 / 2, fun _ j => if j = 0 then 1 else 0⟩,
    ⟨?_, ?_, ?_, ?_⟩, ?_, ⟨?_, ?_, ?_⟩⟩
  · intro j; norm_num
  · norm_num [Fin.sum_univ_two]
  · intro t i j; norm_num
  · intro t i; norm_num [Fin.sum_univ_two]
  · intro t _ i; norm_num [Fin.sum_univ_two]
  · intro u _ j; rfl
  · intro t u _ i j; rfl
  · intro t u _ j; dsimp only; split_ifs <;> simp [IsLog, lik]

/-! ## C12, C13 -/

/-- **C13.** The discrete smoothing operator is associative on finite elements (which are closed under
it). -/
theorem discrete_smoothing_operator_assoc (A B C : Fin (n + 1) → Fin (n + 1) → ℝ) :
    smoothingOperator (smoothingOperator (fun i j => fin (A i j)) (fun i j => fin (B i j)))
        (fun i j => fin (C i j)) =
      smoothingOperator (fun i j => fin (A i j))
        (smoothingOperator (fun i j => fin (B i j)) (fun i j => fin (C i j))) ∧
    ∀ i j, (smoothingOperator (fun i j => fin (A i j)) (fun i j => fin (B i j)) i j).IsFin := by
  have hmul : ∀ A B : Fin (n + 1) → Fin (n + 1) → ℝ,
      smoothingOperator (fun i j => fin (A i j)) (fun i j => fin (B i j)) =
        fun i j => fin (∑ k, B i k * A k j) := by
    intro A B
    funext i j
    simp only [smoothingOperator, fin_mul]
    rw [sum_fin]
  constructor
  · rw [hmul, hmul, hmul, hmul]
    funext i j
    congr 1
    have := Matrix.mul_assoc (Matrix.of C) (Matrix.of B) (Matrix.of A)
    exact (congrFun (congrFun this i) j).symm
  · intro i j; rw [hmul]; trivial

/-- **C13** (reverse kernels). Row `j` of the reverse kernel is the conditional law of the current state
given that the next one is `j` (Bayes' rule), a probability vector, when `j` has positive predictive
probability. -/
theorem discrete_reverse_kernel_stochastic (p : Fin (n + 1) → ℝ) (P : Fin (n + 1) → Fin (n + 1) → ℝ)
    (hp : ∀ i, 0 ≤ p i) (hP : ∀ i j, 0 ≤ P i j) (j : Fin (n + 1)) (hj : 0 < ∑ i, p i * P i j) :
    (∀ i, getReverseKernel (fun i => fin (p i)) (fun i j => fin (P i j)) j i =
        fin (p i * P i j / ∑ i, p i * P i j)) ∧
      (∀ i, 0 ≤ p i * P i j / ∑ i, p i * P i j) ∧
      ∑ i, p i * P i j / (∑ i, p i * P i j) = 1 := by
  refine ⟨fun i => ?_, fun i => div_nonneg (mul_nonneg (hp i) (hP i j)) hj.le, ?_⟩
  · simp only [getReverseKernel, fin_mul]
    simp only [mul_comm (P _ _)]
    rw [sum_fin, fin_div _ _ hj.ne']
  · rw [← Finset.sum_div]; exact div_self hj.ne'

section smoother
variable {M : HMM (Fin (n + 1))} {getInit : Inp → Fin (n + 1) → Fl}
  {getTrans : Inp → Fin (n + 1) → Fin (n + 1) → Fl} {getObs : Inp → Fin (n + 1) → Fl}
  {inputs : List Inp}

/-- Every state has positive predictive probability `p(x_{t+1} = j, y_1..y_t)` at every step. -/
def AllReachable (M : HMM (Fin (n + 1))) (T : ℕ) : Prop :=
  ∀ t, t < T → ∀ j, 0 < ∑ i, M.filterJoint t i * M.trans t i j

theorem getReverseKernel_eq (t : ℕ) (dist : Fin (n + 1) → Fl)
    (trans : Fin (n + 1) → Fin (n + 1) → Fl)
    (he : 0 < M.evidence t) (hd : ∀ k, dist k = fin (M.filterLaw t k))
    (htr : ∀ i j, trans i j = fin (M.trans t i j))
    (hp : ∀ j, 0 < ∑ i, M.filterJoint t i * M.trans t i j) :
    getReverseKernel dist trans =
      fun j i => fin (M.filterJoint t i * M.trans t i j / ∑ i, M.filterJoint t i * M.trans t i j) := by
  have hs : ∀ j, ∑ i, M.trans t i j * M.filterLaw t i =
      (∑ i, M.filterJoint t i * M.trans t i j) / M.evidence t := by
    intro j
    rw [Finset.sum_div]
    refine Finset.sum_congr rfl fun i _ => ?_
    unfold HMM.filterLaw; ring
  funext j i
  simp only [getReverseKernel, hd, htr, fin_mul]
  rw [sum_fin, hs, fin_div _ _ (div_pos (hp j) he).ne']
  congr 1
  unfold HMM.filterLaw
  have h1 := (hp j).ne'
  have h2 := he.ne'
  field_simp

/-- One backward step for the smoothing law. -/
theorem smoothLaw_step (t m : ℕ) (i : Fin (n + 1))
    (hp : ∀ j, 0 < ∑ i, M.filterJoint t i * M.trans t i j) :
    ∑ j, M.smoothLaw (t + (m + 1)) ⟨t + 1, by omega⟩ j *
        (M.filterJoint t i * M.trans t i j / ∑ i, M.filterJoint t i * M.trans t i j) =
      M.smoothLaw (t + (m + 1)) ⟨t, by omega⟩ i := by
  have h1 : ∀ j, M.smoothJoint (t + (m + 1)) ⟨t + 1, by omega⟩ j =
      M.filterJoint (t + 1) j * M.future (t + 1) m j := by
    intro j
    have := M.smoothJoint_eq (t + 1) m j
    have hcast : ∀ (a b : ℕ) (h : a = b) (ha : t + 1 < a + 1) (hb : t + 1 < b + 1),
        M.smoothJoint a ⟨t + 1, ha⟩ j = M.smoothJoint b ⟨t + 1, hb⟩ j := by
      intro a b h ha hb; subst h; rfl
    rw [hcast (t + (m + 1)) (t + 1 + m) (by omega) (by omega) (by omega), this]
  have h2 := M.smoothJoint_eq t (m + 1) i
  unfold HMM.smoothLaw
  simp only [h1]
  rw [h2, M.future_succ, Finset.mul_sum, Finset.sum_div]
  refine Finset.sum_congr rfl fun j _ => ?_
  have hf : M.filterJoint (t + 1) j = (∑ i, M.filterJoint t i * M.trans t i j) * M.lik t j := by
    rw [M.filterJoint_succ, Finset.sum_mul]
    refine Finset.sum_congr rfl fun i _ => ?_
    unfold HMM.stepMat; ring
  rw [hf]
  have := (hp j).ne'
  unfold HMM.stepMat
  field_simp

/-- **C12, C13.** Filtering (in either mode) and then smoothing (in either mode, inputs taken from the
filter states) returns for every time `t ≤ T` the smoothing distribution `P(x_t = · | y_1..y_T)`
defined by sums over all state paths. Assumes positive one-step evidence from each state and that
each state is reachable at each time; see `discrete_smoother_nan_if_unreachable` for the second.
The state at `t < T` stores the inputs of the transition `t → t+1`, the last one a dummy. -/
theorem discrete_smoother_exact (hR : Represents M getInit getTrans getObs inputs) (hV : Valid M)
    (T : ℕ) (hT : inputs.length = T + 1) (hT1 : 1 ≤ T)
    (hpos : RowsPositive M T) (hreach : AllReachable M T) (rng rng' : Prng K)
    (key key' : Option K) (parallel parallel' : Bool) (dummy : Inp → Inp)
    (filterStates : List (FilterState n Inp))
    (h : (filter rng (buildFilter (K := K) getInit getTrans getObs) inputs parallel key).result
      = .ok filterStates) :
    ∃ states, (smoother rng' FilterState.modelInputs (fun u => .ok (dummy u))
        (buildSmoother dummy getTrans) filterStates none parallel' key').result = .ok states ∧
      states.length = T + 1 ∧
      ∀ t (ht : t < T + 1) s, states[t]? = some s →
        (∀ k, s.dist k = fin (M.smoothLaw T ⟨t, ht⟩ k)) ∧
        (t < T → inputs[t + 1]? = some s.modelInputs) ∧
        (t = T → inputs[1]?.map (fun u => dummy (dummy u)) = some s.modelInputs) := by
  have hne : inputs ≠ [] := by rintro rfl; simp at hT
  obtain ⟨w, hw, hlen, hall⟩ := discrete_filter_exact hR hV hne (by rw [hT]; exact hpos) rng key
    parallel
  rw [h, Except.ok.injEq] at hw
  subst hw
  -- the stored inputs are the given ones
  have hins : filterStates.map FilterState.modelInputs = inputs := by
    apply List.ext_getElem?
    intro t
    rw [List.getElem?_map]
    rcases Nat.lt_or_ge t filterStates.length with ht | ht
    · have e := List.getElem?_eq_getElem ht
      rw [e, (hall t _ e).2.2.2]; rfl
    · rw [List.getElem?_eq_none ht, List.getElem?_eq_none (by omega)]; rfl
  obtain ⟨u0, us, rfl⟩ : ∃ u us, inputs = u :: us := by
    cases inputs with
    | nil => exact absurd rfl hne
    | cons u us => exact ⟨u, us, rfl⟩
  have hlus : us.length = T := by simpa using hT
  have hl2 : us.length + 1 = filterStates.length := by rw [hlen]; simp
  rw [(smoother_inputs_T_or_T_plus_one rng' FilterState.modelInputs (fun u => .ok (dummy u))
    (buildSmoother dummy getTrans) filterStates u0 us hl2 parallel' key').2 hins]
  -- kernels of the prepared states
  have hker : ∀ t x u, filterStates[t]? = some x → us[t]? = some u →
      getReverseKernel x.dist (getTrans u) = fun j i =>
        fin (M.filterJoint t i * M.trans t i j / ∑ i, M.filterJoint t i * M.trans t i j) := by
    intro t x u hx hu
    have ht : t < T := by
      rw [← hlus]; by_contra hc; rw [List.getElem?_eq_none (by omega)] at hu; cases hu
    obtain ⟨a1, a2, -, -⟩ := hall t x hx
    exact getReverseKernel_eq t x.dist (getTrans u) a2 a1 (hR.trans t u hu) (hreach t ht)
  have hpar : (smoother rng' FilterState.modelInputs (fun u => .ok (dummy u))
      (buildSmoother dummy getTrans) filterStates (some us) parallel' key').result =
      (smoother rng' FilterState.modelInputs (fun u => .ok (dummy u))
      (buildSmoother dummy getTrans) filterStates (some us) false key').result := by
    cases parallel' with
    | false => rfl
    | true =>
      refine smoother_parallel_eq_sequential rng' _ _ _ _ _ hl2 _
        (fun s => ∃ A : Fin (n + 1) → Fin (n + 1) → ℝ, s.a = fun i j => fin (A i j)) ?_ ?_ ?_ ?_
      · intro x hx u k
        rw [List.getLast?_eq_getElem?] at hx
        obtain ⟨a1, -⟩ := hall _ x hx
        exact ⟨_, funext fun i => funext fun j => a1 j⟩
      · intro t x u hx hu k
        exact ⟨_, hker t x u hx hu⟩
      · rintro a b ⟨A, hA⟩ ⟨B, hB⟩
        refine ⟨fun i j => ∑ k, B i k * A k j, ?_⟩
        simp only [buildSmoother, smootherCombine, hA, hB]
        funext i j
        simp only [smoothingOperator, fin_mul]
        rw [sum_fin]
      · rintro a b c ⟨A, hA⟩ ⟨B, hB⟩ ⟨C, hC⟩
        simp only [buildSmoother, smootherCombine, hA, hB, hC]
        rw [(discrete_smoothing_operator_assoc A B C).1]
  rw [hpar]
  obtain ⟨u1, hu1⟩ : ∃ u, us[0]? = some u := ⟨_, List.getElem?_eq_getElem (by omega)⟩
  obtain ⟨states, hst, run⟩ := smoother_sequential_is_backward_run rng' FilterState.modelInputs
    (fun u => .ok (dummy u)) (buildSmoother (K := K) dummy getTrans) filterStates us key' hl2 u1 hu1
    (dummy u1) rfl
  have hslen := run.length_eq
  refine ⟨states, hst, by omega, ?_⟩
  -- all rows of the smoother element are the smoothing law
  have main : ∀ m t, (hm : t + m = T) → ∀ s, states[t]? = some s →
      ∀ r k, s.a r k = fin (M.smoothLaw T ⟨t, by omega⟩ k) := by
    intro m
    induction m with
    | zero =>
      intro t hm s hs r k
      have htT : t = T := by omega
      subst htT
      have hx : filterStates.getLast? = filterStates[t]? := by
        rw [List.getLast?_eq_getElem?]; congr 1; omega
      have e : filterStates[t]? = some filterStates[t] := List.getElem?_eq_getElem (by omega)
      have hl := run.last _ (hx.trans e)
      rw [List.getLast?_eq_getElem?, show states.length - 1 = t by omega, hs,
        Option.some.injEq] at hl
      subst hl
      simp only [buildSmoother, convert]
      rw [(hall t _ e).1 k]
      rfl
    | succ m ih =>
      intro t hm s hs r k
      have e1 : filterStates[t]? = some filterStates[t] := List.getElem?_eq_getElem (by omega)
      have e2 : us[t]? = some us[t] := List.getElem?_eq_getElem (by omega)
      have e3 : states[t + 1]? = some states[t + 1] := List.getElem?_eq_getElem (by omega)
      have hnext := ih (t + 1) (by omega) _ e3
      rw [run.step t _ _ _ e1 e2 e3, Option.some.injEq] at hs
      subst hs
      simp only [buildSmoother, smootherCombine, smootherPrepare, hker t _ _ e1 e2,
        smoothingOperator, hnext, fin_mul]
      rw [sum_fin]
      congr 1
      have := smoothLaw_step (M := M) t m k (hreach t (by omega))
      subst hm
      exact this
  intro t ht s hs
  refine ⟨fun k => main (T - t) t (by omega) s hs 0 k, fun htT => ?_, fun htT => ?_⟩
  · have e1 : filterStates[t]? = some filterStates[t] := List.getElem?_eq_getElem (by omega)
    have e2 : us[t]? = some us[t] := List.getElem?_eq_getElem (by omega)
    have e3 : states[t + 1]? = some states[t + 1] := List.getElem?_eq_getElem (by omega)
    rw [run.step t _ _ _ e1 e2 e3, Option.some.injEq] at hs
    subst hs
    exact e2
  · subst htT
    have hx : filterStates.getLast? = filterStates[t]? := by
      rw [List.getLast?_eq_getElem?]; congr 1; omega
    have e : filterStates[t]? = some filterStates[t] := List.getElem?_eq_getElem (by omega)
    have hl := run.last _ (hx.trans e)
    rw [List.getLast?_eq_getElem?, show states.length - 1 = t by omega, hs,
      Option.some.injEq] at hl
    subst hl
    rw [List.getElem?_cons_succ, hu1]
    rfl

/-- **C12 needs reachability**: if a state has zero predictive probability at some step `t → t+1`, the
sequential smoother returns NaN at time `t`, although the filter is exact. -/
theorem discrete_smoother_nan_if_unreachable
    (hR : Represents M getInit getTrans getObs inputs) (hV : Valid M)
    (T : ℕ) (hT : inputs.length = T + 1)
    (hpos : RowsPositive M T) (t : ℕ) (ht : t < T) (j : Fin (n + 1))
    (hz : ∑ i, M.filterJoint t i * M.trans t i j = 0) (rng rng' : Prng K)
    (key key' : Option K) (parallel : Bool) (dummy : Inp → Inp)
    (filterStates : List (FilterState n Inp))
    (h : (filter rng (buildFilter (K := K) getInit getTrans getObs) inputs parallel key).result
      = .ok filterStates) (states : List (SmootherState n Inp))
    (hst : (smoother rng' FilterState.modelInputs (fun u => .ok (dummy u))
        (buildSmoother dummy getTrans) filterStates none false key').result = .ok states)
    (s : SmootherState n Inp) (hs : states[t]? = some s) : ∀ k, s.dist k = nan := by
  have hne : inputs ≠ [] := by rintro rfl; simp at hT
  obtain ⟨w, hw, hrunF⟩ := filter_sequential_is_online_run rng
    (buildFilter (K := K) getInit getTrans getObs) inputs key hne
  have h' := h
  rw [discrete_filter_parallel_eq hR hV (by rw [hT]; exact hpos) rng key parallel, hw,
    Except.ok.injEq] at h'
  subst h'
  obtain ⟨w', hw', hlen, hall⟩ := discrete_filter_exact hR hV hne (by rw [hT]; exact hpos) rng key
    parallel
  rw [h, Except.ok.injEq] at hw'
  subst hw'
  have hins : w.map FilterState.modelInputs = inputs := by
    apply List.ext_getElem?
    intro t
    rw [List.getElem?_map]
    rcases Nat.lt_or_ge t w.length with ht | ht
    · have e := List.getElem?_eq_getElem ht
      rw [e, (hall t _ e).2.2.2]; rfl
    · rw [List.getElem?_eq_none ht, List.getElem?_eq_none (by omega)]; rfl
  obtain ⟨u0, us, rfl⟩ : ∃ u us, inputs = u :: us := by
    cases inputs with
    | nil => exact absurd rfl hne
    | cons u us => exact ⟨u, us, rfl⟩
  have hlus : us.length = T := by simpa using hT
  have hl2 : us.length + 1 = w.length := by rw [hlen]; simp
  rw [(smoother_inputs_T_or_T_plus_one rng' FilterState.modelInputs (fun u => .ok (dummy u))
    (buildSmoother dummy getTrans) w u0 us hl2 false key').2 hins] at hst
  obtain ⟨u1, hu1⟩ : ∃ u, us[0]? = some u := ⟨_, List.getElem?_eq_getElem (by omega)⟩
  obtain ⟨states', hst', run⟩ := smoother_sequential_is_backward_run rng' FilterState.modelInputs
    (fun u => .ok (dummy u)) (buildSmoother (K := K) dummy getTrans) w us key' hl2 u1 hu1
    (dummy u1) rfl
  rw [hst, Except.ok.injEq] at hst'
  subst hst'
  have hslen := run.length_eq
  have e1 : w[t]? = some w[t] := List.getElem?_eq_getElem (by omega)
  have e2 : us[t]? = some us[t] := List.getElem?_eq_getElem (by omega)
  have e3 : states[t + 1]? = some states[t + 1] := List.getElem?_eq_getElem (by omega)
  rw [run.step t _ _ _ e1 e2 e3, Option.some.injEq] at hs
  subst hs
  intro k
  obtain ⟨a1, a2, -, -⟩ := hall t _ e1
  obtain ⟨-, hgood⟩ := run_invariant hR hV T hpos hrunF t (by simp; omega) (by omega)
  have hz' : ∀ i, M.filterJoint t i * M.trans t i j = 0 := fun i =>
    (Finset.sum_eq_zero_iff_of_nonneg
      (fun i _ => mul_nonneg (hgood.nonneg 0 i) (hV.trans_nonneg t i j))).mp hz i (Finset.mem_univ i)
  have hprod : ∀ i, M.trans t i j * M.filterLaw t i = 0 := by
    intro i
    unfold HMM.filterLaw
    rw [mul_div_assoc', mul_comm (M.trans t i j), hz' i, zero_div]
  simp only [SmootherState.dist, buildSmoother, smootherCombine, smoothingOperator]
  refine sum_nan _ _ j (Finset.mem_univ j) ?_
  have : (smootherPrepare getTrans w[t] us[t]).a j k = nan := by
    simp only [smootherPrepare, getReverseKernel, a1, hR.trans t _ e2, fin_mul, hprod]
    rw [sum_fin]
    simp [Fl.div_def, Fl.div, infOfSign]
  rw [this, mul_nan]

end smoother

/-- Non-vacuity for C12: the uniform two-state model has reachable states at every time. -/
example : ∃ M : HMM (Fin 2), Valid (n := 1) M ∧ RowsPositive (n := 1) M 1 ∧
    AllReachable (n := 1) M 1 := by
  refine ⟨⟨fun _ => 1 / 2, fun _ _ _ => 1 / 2, fun _ j => if j = 0 then 1 else 0⟩,
    ⟨?_, ?_, ?_, ?_⟩, ?_, ?_⟩
  · intro j; norm_num
  · norm_num [Fin.sum_univ_two]
  · intro t i j; norm_num
  · intro t i; norm_num [Fin.sum_univ_two]
  · intro t _ i; norm_num [Fin.sum_univ_two]
  · intro t ht j
    have : t = 0 := by omega
    subst this
    simp only [HMM.filterJoint_zero]
    norm_num [Fin.sum_univ_two]

/-- Non-vacuity for `discrete_smoother_nan_if_unreachable`: a chain that always moves to state 0. -/
example : ∃ M : HMM (Fin 2), Valid (n := 1) M ∧ RowsPositive (n := 1) M 3 ∧
    ∑ i, M.filterJoint 0 i * M.trans 0 i 1 = 0 := by
  refine ⟨⟨fun _ => 1 / 2, fun _ _ j => if j = 0 then 1 else 0, fun _ _ => 1⟩,
    ⟨?_, ?_, ?_, ?_⟩, ?_, ?_⟩
  · intro j; norm_num
  · norm_num [Fin.sum_univ_two]
  · intro t i j; dsimp only; split_ifs <;> norm_num
  · intro t i; norm_num [Fin.sum_univ_two]
  · intro t _ i; norm_num [Fin.sum_univ_two]
  · norm_num [Fin.sum_univ_two]

end Cuthbert.Discrete
