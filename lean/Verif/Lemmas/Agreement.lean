import Mathlib.MeasureTheory.Integral.Lebesgue.Countable
import Verif.Spec.Simulates
import Verif.Lemmas.LinearizedRun
import Verif.Lemmas.HMM
import Verif.Lemmas.SMCRun

/-! Feynman-Kac expectations of finite models are sums over paths. -/

namespace Cuthbert.SMC
open MeasureTheory Matrix Spec
open scoped ENNReal

noncomputable section

variable {K Inp X : Type} [MeasurableSpace K]

/-- A finite path, extended by its end point. -/
def extend {T : ℕ} (x : Fin (T + 1) → X) : ℕ → X := fun n => x ⟨min n T, by omega⟩

theorem pathCons_extend {T : ℕ} (a : X) (y : Fin (T + 1) → X) :
    pathCons a (extend y) = extend (Fin.cons (α := fun _ => X) a y : Fin (T + 1 + 1) → X) := by
  funext n
  cases n with
  | zero => rfl
  | succ n =>
    simp only [pathCons, extend]
    have h : (⟨min (n + 1) (T + 1), by omega⟩ : Fin (T + 1 + 1)) = Fin.succ ⟨min n T, by omega⟩ := by
      ext
      simp
    rw [h, Fin.cons_succ]

variable [Fintype X] [MeasurableSpace X] [MeasurableSingletonClass X] {P : Measure K} {mdl : FKModel K X Inp}

theorem fkPathExp_eq_sum : ∀ (us : List Inp) (tr : ℕ → X → X → ℝ) (lk : ℕ → X → ℝ), (∀ t i j, 0 ≤ tr t i j) →
    (∀ t j, t < us.length → 0 ≤ lk t j) → (∀ u ∈ us, mdl.Regular u) →
    (∀ (t : ℕ) u, us[t]? = some u → ∀ i j, P {k | mdl.propagate k i u = j} = ENNReal.ofReal (tr t i j)) →
    (∀ (t : ℕ) u, us[t]? = some u → ∀ i j, (mdl.logPotential i j u).lik = lk t j) →
    ∀ (f : (ℕ → X) → ℝ≥0∞) (x : X), fkPathExp (us.map (mdl.step P)) f x =
      ∑ y : Fin us.length → X, ENNReal.ofReal (∏ t : Fin us.length,
        tr t (Fin.cons (α := fun _ => X) x y t.castSucc) (y t) * lk t (y t)) *
        f (extend (Fin.cons (α := fun _ => X) x y))
  | [], tr, lk, _, _, _, _, _, f, x => by
    simp only [List.map_nil, fkPathExp, List.length_nil, Finset.univ_unique, Finset.sum_singleton,
      Finset.univ_eq_empty, Finset.prod_empty, ENNReal.ofReal_one, one_mul]
    congr 1
    funext n
    have h : (⟨min n 0, by omega⟩ : Fin (0 + 1)) = 0 := by
      ext
      simp
    simp only [extend, h]
    rfl
  | u :: us, tr, lk, htr, hlk, hu, h1, h2, f, x => by
    have ih := fkPathExp_eq_sum us (fun t => tr (t + 1)) (fun t => lk (t + 1)) (fun t => htr (t + 1))
      (fun t j ht => hlk (t + 1) j (by simpa using ht)) (fun v hv => hu v (List.mem_cons_of_mem _ hv))
      (fun t v hv => h1 (t + 1) v (by simpa using hv)) (fun t v hv => h2 (t + 1) v (by simpa using hv))
    have h3 : ∀ j, (mdl.step P u).kernel x {j} = ENNReal.ofReal (tr 0 x j) := by
      intro j
      change (P.map fun k => mdl.propagate k x u) {j} = _
      have hm : Measurable fun k => mdl.propagate k x u :=
        (hu u List.mem_cons_self).propagate.comp (measurable_id.prodMk measurable_const)
      rw [Measure.map_apply hm (measurableSet_singleton j)]
      exact h1 0 u rfl x j
    have h4 : ∀ j, (mdl.step P u).pot x j = ENNReal.ofReal (lk 0 j) := fun j => by
      change ENNReal.ofReal (mdl.logPotential x j u).lik = _
      rw [h2 0 u rfl]
    simp only [List.map_cons, fkPathExp]
    rw [lintegral_fintype]
    simp only [h3, h4, ih]
    have h5 : ∀ F : (Fin (us.length + 1) → X) → ℝ≥0∞, ∑ y : Fin (us.length + 1) → X, F y =
        ∑ j, ∑ y : Fin us.length → X, F (Fin.cons (α := fun _ => X) j y) := by
      intro F
      rw [← Fintype.sum_prod_type']
      exact (Fintype.sum_equiv (Fin.consEquiv fun _ : Fin (us.length + 1) => X)
        (fun p => F (Fin.cons (α := fun _ => X) p.1 p.2)) F fun p => rfl).symm
    simp only [List.length_cons]
    rw [h5]
    refine Finset.sum_congr rfl fun j _ => ?_
    rw [Finset.mul_sum, Finset.sum_mul]
    refine Finset.sum_congr rfl fun y _ => ?_
    rw [Fin.prod_univ_succ]
    have h6 : 0 ≤ tr 0 x j * lk 0 j := mul_nonneg (htr 0 x j) (hlk 0 j (by simp))
    simp only [Fin.castSucc_zero, Fin.cons_zero, Fin.val_zero, Fin.cons_succ, Fin.val_succ, Fin.castSucc_succ]
    rw [ENNReal.ofReal_mul h6, ENNReal.ofReal_mul (htr 0 x j), pathCons_extend]
    ring

/-- The Feynman-Kac expectation of a function of the path is the sum over all paths. -/
theorem fkExp_eq_sum {M : HMM X} {u0 : Inp} {us : List Inp} (hM : SimulatesHMM P mdl M u0 us)
    (hi : ∀ j, 0 ≤ M.init j) (htr : ∀ t i j, 0 ≤ M.trans t i j) (h0 : Measurable fun k => mdl.initSample k u0)
    (hu : ∀ u ∈ us, mdl.Regular u) (f : (ℕ → X) → ℝ≥0∞) :
    fkExp (mdl.init P u0) (us.map (mdl.step P)) f =
      ∑ x : Fin (us.length + 1) → X, ENNReal.ofReal (M.joint us.length x) * f (extend x) := by
  rw [fkExp, lintegral_fintype]
  have h1 : ∀ j, mdl.init P u0 {j} = ENNReal.ofReal (M.init j) := by
    intro j
    rw [FKModel.init, Measure.map_apply h0 (measurableSet_singleton j)]
    exact hM.init j
  have hlk : ∀ (t : ℕ) j, t < us.length → 0 ≤ M.lik t j := fun t j ht => by
    rw [← hM.lik t _ (List.getElem?_eq_getElem ht) j j]
    exact Fl.lik_nonneg _
  simp only [h1, fkPathExp_eq_sum us M.trans M.lik htr hlk hu hM.trans hM.lik]
  have h5 : ∀ F : (Fin (us.length + 1) → X) → ℝ≥0∞, ∑ y : Fin (us.length + 1) → X, F y =
      ∑ j, ∑ y : Fin us.length → X, F (Fin.cons (α := fun _ => X) j y) := by
    intro F
    rw [← Fintype.sum_prod_type']
    exact (Fintype.sum_equiv (Fin.consEquiv fun _ : Fin (us.length + 1) => X)
      (fun p => F (Fin.cons (α := fun _ => X) p.1 p.2)) F fun p => rfl).symm
  rw [h5]
  refine Finset.sum_congr rfl fun j _ => ?_
  rw [Finset.sum_mul]
  refine Finset.sum_congr rfl fun y _ => ?_
  rw [HMM.joint]
  simp only [Fin.cons_zero, Fin.cons_succ]
  rw [ENNReal.ofReal_mul (hi j)]
  ring

end

end Cuthbert.SMC
