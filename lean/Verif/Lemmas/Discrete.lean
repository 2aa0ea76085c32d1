import Verif.Model.Discrete
import Verif.Lemmas.HMM
import Mathlib.Tactic.FieldSimp
import Mathlib.Algebra.BigOperators.Field
import Mathlib.Tactic.Linarith

namespace Cuthbert
open Fl

namespace Fl

theorem isLog_cases {a : Fl} (h : a.IsLog) : a = ninf ∨ ∃ r, a = fin r := by
  cases a with
  | nan => exact h.elim
  | pinf => exact h.elim
  | ninf => exact Or.inl rfl
  | fin r => exact Or.inr ⟨r, rfl⟩

theorem fold_max_isLog {ι : Type*} (s : Finset ι) (v : ι → Fl) (h : ∀ i ∈ s, (v i).IsLog) :
    (s.fold Fl.max ninf v).IsLog ∧
      ((∃ i ∈ s, v i ≠ ninf) → ∃ m, s.fold Fl.max ninf v = fin m) := by
  classical
  induction s using Finset.induction_on with
  | empty => simp [IsLog]
  | insert a s ha ih =>
    obtain ⟨h1, h2⟩ := ih fun i hi => h i (Finset.mem_insert_of_mem hi)
    rw [Finset.fold_insert ha]
    rcases isLog_cases (h a (Finset.mem_insert_self a s)) with e | ⟨r, e⟩
    · rw [e]
      rcases isLog_cases h1 with e' | ⟨r', e'⟩
      · rw [e']
        refine ⟨trivial, ?_⟩
        rintro ⟨i, hi, hn⟩
        rcases Finset.mem_insert.mp hi with rfl | hi
        · exact absurd e hn
        · obtain ⟨m, hm⟩ := h2 ⟨i, hi, hn⟩
          rw [hm] at e'; cases e'
      · rw [e']; exact ⟨trivial, fun _ => ⟨r', rfl⟩⟩
    · rw [e]
      rcases isLog_cases h1 with e' | ⟨r', e'⟩
      · rw [e']; exact ⟨trivial, fun _ => ⟨r, rfl⟩⟩
      · rw [e']; exact ⟨trivial, fun _ => ⟨_, rfl⟩⟩

theorem vmax_fin {n : ℕ} (v : Fin n → Fl) (h : ∀ i, (v i).IsLog) (h' : ∃ i, v i ≠ ninf) :
    ∃ m, vmax v = fin m := by
  obtain ⟨i, hi⟩ := h'
  exact (fold_max_isLog Finset.univ v fun i _ => h i).2 ⟨i, Finset.mem_univ i, hi⟩

theorem vmax_ninf {n : ℕ} (v : Fin n → Fl) (h : ∀ i, v i = ninf) : vmax v = ninf := by
  unfold vmax
  have : ∀ s : Finset (Fin n), s.fold Fl.max ninf v = ninf := by
    intro s
    induction s using Finset.induction_on with
    | empty => simp
    | insert a s ha ih => rw [Finset.fold_insert ha, ih, h a]; rfl
  exact this _

theorem lik_eq_zero_iff {a : Fl} (h : a.IsLog) : lik a = 0 ↔ a = ninf := by
  rcases isLog_cases h with e | ⟨r, e⟩
  · simp [e, lik]
  · simp [e, lik, Real.exp_ne_zero]

theorem exp_sub_fin {a : Fl} (h : a.IsLog) (m : ℝ) :
    Fl.exp (a - fin m) = fin (lik a * Real.exp (-m)) := by
  rcases isLog_cases h with e | ⟨r, e⟩
  · simp [e, lik]
  · simp [e, lik, sub_eq_add_neg, Real.exp_add]

end Fl

namespace Discrete

variable {n : ℕ} {Inp K : Type*}

noncomputable section

/-- Row sum. -/
def rowSum (G : Matrix (Fin (n + 1)) (Fin (n + 1)) ℝ) (i : Fin (n + 1)) : ℝ := ∑ j, G i j

/-- Non-negative with positive row sums. -/
structure Good (G : Matrix (Fin (n + 1)) (Fin (n + 1)) ℝ) : Prop where
  nonneg : ∀ i j, 0 ≤ G i j
  pos : ∀ i, 0 < rowSum G i

/-- The scan element that stores a matrix as normalised rows and log row sums. -/
def ofMat (G : Matrix (Fin (n + 1)) (Fin (n + 1)) ℝ) : FilterScanElement n where
  f := fun i j => fin (G i j / rowSum G i)
  logG := fun i => fin (Real.log (rowSum G i))

theorem conditionOnObs_eq (p : Fin (n + 1) → Fin (n + 1) → ℝ) (lls : Fin (n + 1) → Fl)
    (hl : ∀ j, (lls j).IsLog) (hpos : ∀ i, 0 < ∑ j, p i j * lik (lls j)) :
    conditionOnObs (fun i j => fin (p i j)) lls =
      (fun i j => fin (p i j * lik (lls j) / ∑ j, p i j * lik (lls j)),
        fun i => fin (Real.log (∑ j, p i j * lik (lls j)))) := by
  have hex : ∃ j, lls j ≠ ninf := by
    by_contra hc
    have := hpos 0
    rw [Finset.sum_eq_zero] at this
    · exact lt_irrefl _ this
    · intro j _
      have : lls j = ninf := by by_contra h; exact hc ⟨j, h⟩
      rw [this]; simp [lik]
  obtain ⟨m, hm⟩ := vmax_fin lls hl hex
  have hA : ∀ i j, fin (p i j) * Fl.exp (lls j - vmax lls) =
      fin (p i j * lik (lls j) * Real.exp (-m)) := by
    intro i j
    rw [hm, exp_sub_fin (hl j), fin_mul, mul_assoc]
  have hN : ∀ i, ∑ j, fin (p i j) * Fl.exp (lls j - vmax lls) =
      fin ((∑ j, p i j * lik (lls j)) * Real.exp (-m)) := by
    intro i
    simp only [hA]
    rw [sum_fin, Finset.sum_mul]
  have hexp := Real.exp_pos (-m)
  unfold conditionOnObs
  simp only [hN, Prod.mk.injEq]
  constructor
  · funext i j
    rw [hA, fin_div _ _ (mul_pos (hpos i) hexp).ne', mul_div_mul_right _ _ hexp.ne']
  · funext i
    rw [log_fin _ (mul_pos (hpos i) hexp), hm, fin_add,
      Real.log_mul (hpos i).ne' hexp.ne', Real.log_exp]
    congr 1; ring

theorem good_mul {G H : Matrix (Fin (n + 1)) (Fin (n + 1)) ℝ} (hG : Good G) (hH : Good H) :
    Good (G * H) := by
  refine ⟨fun i j => ?_, fun i => ?_⟩
  · rw [Matrix.mul_apply]
    exact Finset.sum_nonneg fun k _ => mul_nonneg (hG.nonneg i k) (hH.nonneg k j)
  · have : rowSum (G * H) i = ∑ k, G i k * rowSum H k := by
      unfold rowSum
      simp only [Matrix.mul_apply, Finset.mul_sum]
      rw [Finset.sum_comm]
    rw [this]
    have hp := hG.pos i
    obtain ⟨k, -, hk⟩ := Finset.exists_lt_of_sum_lt (s := Finset.univ) (f := fun _ => (0 : ℝ))
      (g := fun j => G i j) (by simpa [rowSum] using hp)
    exact Finset.sum_pos' (fun k _ => mul_nonneg (hG.nonneg i k) (hH.pos k).le)
      ⟨k, Finset.mem_univ k, mul_pos hk (hH.pos k)⟩

theorem rowSum_mul (G H : Matrix (Fin (n + 1)) (Fin (n + 1)) ℝ) (i : Fin (n + 1)) :
    rowSum (G * H) i = ∑ k, G i k * rowSum H k := by
  unfold rowSum
  simp only [Matrix.mul_apply, Finset.mul_sum]
  rw [Finset.sum_comm]

/-- The operator multiplies the matrices. -/
theorem filteringOperator_ofMat {G H : Matrix (Fin (n + 1)) (Fin (n + 1)) ℝ} (hG : Good G)
    (hH : Good H) : filteringOperator (ofMat G) (ofMat H) = ofMat (G * H) := by
  have hlik : ∀ j, lik ((ofMat H).logG j) = rowSum H j := by
    intro j; simp [ofMat, lik, Real.exp_log (hH.pos j)]
  have hsum : ∀ i, ∑ j, G i j / rowSum G i * rowSum H j = rowSum (G * H) i / rowSum G i := by
    intro i
    rw [rowSum_mul, Finset.sum_div]
    refine Finset.sum_congr rfl fun j _ => ?_
    ring
  have hGH := good_mul hG hH
  have hc := conditionOnObs_eq (fun i j => G i j / rowSum G i) (ofMat H).logG
    (fun j => trivial) (by
      intro i
      simp only [hlik, hsum]
      exact div_pos (hGH.pos i) (hG.pos i))
  have hf : (ofMat G).f = fun i j => fin (G i j / rowSum G i) := rfl
  unfold filteringOperator
  rw [hf, hc]
  simp only [hlik, hsum]
  unfold ofMat
  congr 1
  · funext i k
    simp only [fin_mul]
    rw [sum_fin]
    congr 1
    rw [Matrix.mul_apply, Finset.sum_div]
    refine Finset.sum_congr rfl fun j _ => ?_
    have h1 := (hG.pos i).ne'
    have h2 := (hGH.pos i).ne'
    have h3 := (hH.pos j).ne'
    field_simp
  · funext i
    have h1 := (hG.pos i).ne'
    have h2 := (hGH.pos i).ne'
    rw [fin_add, Real.log_div h2 h1]
    congr 1; ring

theorem ofMat_injective {G H : Matrix (Fin (n + 1)) (Fin (n + 1)) ℝ} (hG : Good G)
    (hH : Good H) (h : ofMat G = ofMat H) : G = H := by
  have h1 : ∀ i, rowSum G i = rowSum H i := by
    intro i
    have := congrFun (congrArg FilterScanElement.logG h) i
    simp only [ofMat, Fl.fin.injEq] at this
    exact Real.log_injOn_pos (hG.pos i) (hH.pos i) this
  funext i j
  have := congrFun (congrFun (congrArg FilterScanElement.f h) i) j
  simp only [ofMat, Fl.fin.injEq] at this
  rw [h1 i] at this
  exact (div_left_inj' (hH.pos i).ne').mp this

theorem filterPrepare_eq (getTrans : Inp → Fin (n + 1) → Fin (n + 1) → Fl)
    (getObsLls : Inp → Fin (n + 1) → Fl) (u : Inp) (p : Fin (n + 1) → Fin (n + 1) → ℝ)
    (hp : ∀ i j, getTrans u i j = fin (p i j)) (hl : ∀ j, (getObsLls u j).IsLog)
    (hpos : ∀ i, 0 < ∑ j, p i j * lik (getObsLls u j)) :
    filterPrepare getTrans getObsLls u =
      ⟨ofMat (fun i j => p i j * lik (getObsLls u j)), u⟩ := by
  have : getTrans u = fun i j => fin (p i j) := by funext i j; exact hp i j
  unfold filterPrepare
  rw [this, conditionOnObs_eq p _ hl hpos]
  rfl

theorem initPrepare_eq (getInitDist : Inp → Fin (n + 1) → Fl) (u : Inp) (m : Fin (n + 1) → ℝ)
    (hm : ∀ j, getInitDist u j = fin (m j)) (hsum : ∑ j, m j = 1) :
    initPrepare getInitDist u = ⟨ofMat (fun _ j => m j), u⟩ := by
  unfold initPrepare ofMat
  have : ∀ i : Fin (n + 1), rowSum (fun _ j => m j : Matrix (Fin (n + 1)) (Fin (n + 1)) ℝ) i = 1 :=
    fun i => hsum
  simp [this, hm]

end

end Discrete

end Cuthbert
