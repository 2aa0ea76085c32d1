import Verif.Props.Discrete
import Verif.Spec.Register

/-!
# A register carried along with the state of a hidden Markov model (C138)
-/

namespace Cuthbert.Spec.HMM.WithRegister

variable {X W Y : Type*} [Fintype X] [Fintype W] [Fintype Y] [DecidableEq X] [DecidableEq W] [DecidableEq Y]
  {e : X × W ≃ Y} {upd : ℕ → X → W → W} {w : W} {M : HMM X} {J : HMM Y}

/-- The filter recursion of the augmented model sums over the paths that lead to a given state and content. -/
theorem filterJoint (h : WithRegister e upd w M J) (T : ℕ) (j : X) (b : W) : J.filterJoint T (e (j, b)) =
    ∑ x : Fin (T + 1) → X, if x (Fin.last T) = j then (if register upd w T x = b then M.joint T x else 0) else 0 := by
  induction T generalizing j b with
  | zero =>
    rw [filterJoint_zero, h.init, ← (Equiv.funUnique (Fin 1) X).symm.sum_comp]
    simp [register, HMM.joint, eq_comm]
  | succ T ih =>
    rw [filterJoint_succ, ← e.sum_comp, Fintype.sum_prod_type, sum_path_succ]
    simp only [joint_snoc, Fin.snoc_last, ih, stepMat, h.trans, h.lik, register, Fin.snoc_castSucc]
    have hr : ∀ g : X → (Fin (T + 1) → X) → ℝ, (∑ l, ∑ x : Fin (T + 1) → X, if l = j then g l x else 0) = ∑ x, g j x := by
      intro g
      rw [Finset.sum_comm]
      simp
    rw [hr fun l x => if upd T (x (Fin.last T)) (register upd w T fun i => x i) = b then
      M.joint T x * (M.trans T (x (Fin.last T)) l * M.lik T l) else 0]
    simp only [Finset.sum_mul]
    have hl : ∀ i a, (∑ x : Fin (T + 1) → X,
        (if x (Fin.last T) = i then if register upd w T x = a then M.joint T x else 0 else 0) *
          ((if b = upd T i a then M.trans T i j else 0) * M.lik T j)) =
        ∑ x : Fin (T + 1) → X, if x (Fin.last T) = i then (if register upd w T x = a then
          (if upd T i a = b then M.joint T x * (M.trans T i j * M.lik T j) else 0) else 0) else 0 := by
      intro i a
      refine Finset.sum_congr rfl fun x _ => ?_
      by_cases h1 : x (Fin.last T) = i <;> by_cases h2 : register upd w T x = a <;> by_cases h3 : upd T i a = b <;>
        simp [h1, h2, h3, eq_comm]
      intro h4; exact absurd h4.symm h3
    simp only [hl]
    have hc : ∀ i, (∑ a, ∑ x : Fin (T + 1) → X, if x (Fin.last T) = i then (if register upd w T x = a then
          (if upd T i a = b then M.joint T x * (M.trans T i j * M.lik T j) else 0) else 0) else 0) =
        ∑ x : Fin (T + 1) → X, if x (Fin.last T) = i then
          (if upd T i (register upd w T x) = b then M.joint T x * (M.trans T i j * M.lik T j) else 0) else 0 := by
      intro i
      rw [Finset.sum_comm]
      refine Finset.sum_congr rfl fun x _ => ?_
      by_cases h1 : x (Fin.last T) = i <;> simp [h1]
    simp only [hc]
    rw [Finset.sum_comm]
    refine Finset.sum_congr rfl fun x _ => ?_
    simp

theorem evidence (h : WithRegister e upd w M J) (T : ℕ) : J.evidence T = M.evidence T := by
  rw [evidence_eq_sum, ← e.sum_comp, Fintype.sum_prod_type]
  simp only [h.filterJoint]
  rw [HMM.evidence]
  simp only [Finset.sum_comm (γ := W)]
  rw [Finset.sum_comm]
  refine Finset.sum_congr rfl fun x _ => ?_
  simp

end Cuthbert.Spec.HMM.WithRegister

namespace Cuthbert.Discrete
open Fl Spec Spec.HMM

variable {n n' k : ℕ} {Inp InpJ K KJ : Type*} {e : Fin (n + 1) × Fin (n' + 1) ≃ Fin (k + 1)}
  {upd : ℕ → Fin (n + 1) → Fin (n' + 1) → Fin (n' + 1)} {w : Fin (n' + 1)}
  {M : HMM (Fin (n + 1))} {J : HMM (Fin (k + 1))}
  {getInit : Inp → Fin (n + 1) → Fl} {getTrans : Inp → Fin (n + 1) → Fin (n + 1) → Fl}
  {getObs : Inp → Fin (n + 1) → Fl} {inputs : List Inp}
  {getInitJ : InpJ → Fin (k + 1) → Fl} {getTransJ : InpJ → Fin (k + 1) → Fin (k + 1) → Fl}
  {getObsJ : InpJ → Fin (k + 1) → Fl} {inputsJ : List InpJ}

theorem Valid.register (hV : Valid M) (h : WithRegister e upd w M J) : Valid J where
  init_nonneg j := by
    obtain ⟨⟨i, a⟩, rfl⟩ := e.surjective j
    rw [h.init]; split_ifs
    exacts [hV.init_nonneg i, le_rfl]
  init_sum := by
    rw [← e.sum_comp, Fintype.sum_prod_type]
    simp only [h.init, Finset.sum_ite_eq', Finset.mem_univ, if_true, hV.init_sum]
  trans_nonneg t i j := by
    obtain ⟨⟨i, a⟩, rfl⟩ := e.surjective i
    obtain ⟨⟨j, b⟩, rfl⟩ := e.surjective j
    rw [h.trans]; split_ifs
    exacts [hV.trans_nonneg t i j, le_rfl]
  trans_sum t i := by
    obtain ⟨⟨i, a⟩, rfl⟩ := e.surjective i
    rw [← e.sum_comp, Fintype.sum_prod_type]
    simp only [h.trans, Finset.sum_ite_eq', Finset.mem_univ, if_true, hV.trans_sum]

theorem RowsPositive.register {T : ℕ} (hp : RowsPositive M T) (h : WithRegister e upd w M J) : RowsPositive J T := by
  intro t ht i
  obtain ⟨⟨i, a⟩, rfl⟩ := e.surjective i
  rw [← e.sum_comp, Fintype.sum_prod_type]
  simp only [h.trans, h.lik, ite_mul, zero_mul, Finset.sum_ite_eq', Finset.mem_univ, if_true]
  exact hp t ht i

/-- **C138** (discrete filter with a register). The filter of the augmented model returns at each time the joint posterior of
the state and the content of the register given the data so far, and the log evidence of the original model. -/
theorem filter_register (hRJ : Represents J getInitJ getTransJ getObsJ inputsJ) (hV : Valid M)
    (h : WithRegister e upd w M J) (T : ℕ) (hlenJ : inputsJ.length = T + 1) (hpos : RowsPositive M T)
    (rngJ : Prng KJ) (keyJ : Option KJ) (parallelJ : Bool) :
    ∃ statesJ, (filter rngJ (buildFilter (K := KJ) getInitJ getTransJ getObsJ) inputsJ parallelJ keyJ).result = .ok statesJ ∧
      statesJ.length = T + 1 ∧
      ∀ (t : ℕ) sJ, statesJ[t]? = some sJ →
        (∀ j b, sJ.dist (e (j, b)) = fin ((∑ x : Fin (t + 1) → Fin (n + 1), if x (Fin.last t) = j then
          (if HMM.register upd w t x = b then M.joint t x else 0) else 0) / M.evidence t)) ∧
        sJ.logNormalizingConstant = fin (Real.log (M.evidence t)) := by
  obtain ⟨statesJ, aJ, hlJ, hallJ⟩ := discrete_filter_exact hRJ (hV.register h) (by rintro rfl; simp at hlenJ)
    (by rw [hlenJ]; exact hpos.register h) rngJ keyJ parallelJ
  refine ⟨statesJ, aJ, hlJ.trans hlenJ, fun t sJ hs => ?_⟩
  obtain ⟨b1, -, b3, -⟩ := hallJ t sJ hs
  refine ⟨fun j b => ?_, by rw [b3, h.evidence]⟩
  rw [b1, HMM.filterLaw, h.filterJoint, h.evidence]

/-- **C138** (smoothing by the discrete filter). If the register holds at time `t` the state at time `r`, the probabilities of
its contents under the distribution that the filter of the augmented model returns at time `t` are those that the smoother
returns for the original model at time `r` when it is given the data up to time `t`. -/
theorem smoother_by_register {e : Fin (n + 1) × Fin (n + 1) ≃ Fin (k + 1)}
    {upd : ℕ → Fin (n + 1) → Fin (n + 1) → Fin (n + 1)} {w : Fin (n + 1)} (hR : Represents M getInit getTrans getObs inputs)
    (hRJ : Represents J getInitJ getTransJ getObsJ inputsJ) (hV : Valid M) (h : WithRegister e upd w M J) (t T : ℕ)
    (hlen : inputs.length = t + 1) (hlenJ : inputsJ.length = T + 1) (htT : t ≤ T) (ht1 : 1 ≤ t) (hpos : RowsPositive M T)
    (hreach : AllReachable M t) {r : ℕ} (hr : r < t + 1)
    (hreg : ∀ x : Fin (t + 1) → Fin (n + 1), HMM.register upd w t x = x ⟨r, hr⟩)
    (rng rngS : Prng K) (rngJ : Prng KJ) (key keyS : Option K) (keyJ : Option KJ) (parallel parallelS parallelJ : Bool)
    (dummy : Inp → Inp) (fs : List (FilterState n Inp))
    (hfs : (filter rng (buildFilter (K := K) getInit getTrans getObs) inputs parallel key).result = .ok fs)
    (statesJ : List (FilterState k InpJ))
    (hfJ : (filter rngJ (buildFilter (K := KJ) getInitJ getTransJ getObsJ) inputsJ parallelJ keyJ).result = .ok statesJ) :
    ∃ states s sJ, (smoother rngS FilterState.modelInputs (fun u => .ok (dummy u))
        (buildSmoother dummy getTrans) fs none parallelS keyS).result = .ok states ∧
      states[r]? = some s ∧ statesJ[t]? = some sJ ∧
      ∃ p : Fin (n + 1) → Fin (n + 1) → ℝ, (∀ j b, sJ.dist (e (j, b)) = fin (p j b)) ∧ ∀ b, s.dist b = fin (∑ j, p j b) := by
  obtain ⟨states, a, hl, hall⟩ := discrete_smoother_exact hR hV t hlen ht1 (fun i hi => hpos i (by omega)) hreach rng rngS key
    keyS parallel parallelS dummy fs hfs
  obtain ⟨statesJ', aJ, hlJ, hallJ⟩ := filter_register hRJ hV h T hlenJ hpos rngJ keyJ parallelJ
  rw [hfJ] at aJ; cases aJ
  have h1 : r < states.length := by omega
  have h2 : t < statesJ.length := by omega
  obtain ⟨b1, -⟩ := hallJ t _ (List.getElem?_eq_getElem h2)
  refine ⟨states, _, _, a, List.getElem?_eq_getElem h1, List.getElem?_eq_getElem h2, _, b1, fun b => ?_⟩
  rw [(hall r hr _ (List.getElem?_eq_getElem h1)).1, HMM.smoothLaw, HMM.smoothJoint, ← Finset.sum_div, Finset.sum_comm]
  congr 2
  refine Finset.sum_congr rfl fun x _ => ?_
  simp [hreg]

/-- A register that stores the state at time `r` and keeps it (fixed-point smoothing). -/
theorem register_store {X : Type*} (r : ℕ) (w : X) {T : ℕ} (hr : r < T) (x : Fin (T + 1) → X) :
    HMM.register (fun t i a => if t = r then i else a) w T x = x ⟨r, by omega⟩ := by
  induction T with
  | zero => omega
  | succ T ih =>
    rw [HMM.register]
    by_cases h : T = r
    · subst h
      simp only [if_true]
      rfl
    · rw [if_neg h, ih (by omega)]
      rfl

/-- A register that always stores the state (smoothing with lag one). -/
theorem register_lag {X : Type*} (w : X) (T : ℕ) (x : Fin (T + 1 + 1) → X) :
    HMM.register (fun _ i _ => i) w (T + 1) x = x (Fin.last T).castSucc := rfl

/-- Non-vacuity: any hidden Markov model can be given any register. -/
theorem exists_register (M : HMM (Fin (n + 1))) (upd : ℕ → Fin (n + 1) → Fin (n' + 1) → Fin (n' + 1)) (w : Fin (n' + 1)) :
    ∃ (k : ℕ) (e : Fin (n + 1) × Fin (n' + 1) ≃ Fin (k + 1)) (J : HMM (Fin (k + 1))), WithRegister e upd w M J := by
  let e : Fin (n + 1) × Fin (n' + 1) ≃ Fin (n * n' + n + n' + 1) := finProdFinEquiv.trans (finCongr (by ring))
  exact ⟨_, e, ⟨fun j => if (e.symm j).2 = w then M.init (e.symm j).1 else 0,
    fun t i j => if (e.symm j).2 = upd t (e.symm i).1 (e.symm i).2 then M.trans t (e.symm i).1 (e.symm j).1 else 0,
    fun t j => M.lik t (e.symm j).1⟩, by simp, by simp, by simp⟩

end Cuthbert.Discrete
