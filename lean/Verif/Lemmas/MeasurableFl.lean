import Mathlib.MeasureTheory.Function.SpecialFunctions.Basic
import Verif.Spec.Random
import Verif.Lemmas.Resampling

/-!
# Measurability of floating-point operations and of the inverse distribution function
-/

namespace Cuthbert
open MeasureTheory

noncomputable section

namespace Fl

/-- The inverse of `Fl.code`. -/
def decode : Fin 4 × ℝ → Fl
  | (0, _) => .nan
  | (1, _) => .ninf
  | (2, _) => .pinf
  | (3, r) => .fin r

@[simp] theorem decode_code (a : Fl) : decode (code a) = a := by cases a <;> rfl

theorem measurable_code : Measurable code := comap_measurable _

variable {Ω : Type*} [MeasurableSpace Ω]

theorem measurable_iff {f : Ω → Fl} : Measurable f ↔ Measurable fun x => code (f x) :=
  measurable_comap_iff

theorem measurable_fin : Measurable Fl.fin :=
  measurable_iff.mpr (measurable_const.prodMk measurable_id)

theorem measurable_decode : Measurable decode := by
  refine measurable_from_prod_countable_right fun t => ?_
  fin_cases t
  · exact measurable_const
  · exact measurable_const
  · exact measurable_const
  · exact measurable_fin

theorem measurable_unary {Y : Type*} [MeasurableSpace Y] (f : Fl → Y)
    (h : Measurable fun r : ℝ => f (.fin r)) : Measurable f := by
  have hf : f = (fun q => f (decode q)) ∘ code := by funext a; simp
  have hm : Measurable fun q => f (decode q) := ?_
  · rw [hf]; exact hm.comp measurable_code
  refine measurable_from_prod_countable_right fun t => ?_
  fin_cases t
  · exact measurable_const (a := f .nan)
  · exact measurable_const (a := f .ninf)
  · exact measurable_const (a := f .pinf)
  · exact h

theorem measurable_binary {Y : Type*} [MeasurableSpace Y] (f : Fl → Fl → Y)
    (h : Measurable fun p : ℝ × ℝ => f (.fin p.1) (.fin p.2))
    (h1 : ∀ a, Measurable fun r : ℝ => f a (.fin r))
    (h2 : ∀ a, Measurable fun r : ℝ => f (.fin r) a) :
    Measurable fun p : Fl × Fl => f p.1 p.2 := by
  have hf : (fun p : Fl × Fl => f p.1 p.2) =
      (fun q : (Fin 4 × Fin 4) × (ℝ × ℝ) => f (decode (q.1.1, q.2.1)) (decode (q.1.2, q.2.2))) ∘
        fun p : Fl × Fl => (((code p.1).1, (code p.2).1), ((code p.1).2, (code p.2).2)) := by
    funext p
    change f p.1 p.2 = f (decode (code p.1)) (decode (code p.2))
    rw [decode_code, decode_code]
  rw [hf]
  have hcomp : ∀ (g : (Fin 4 × Fin 4) × (ℝ × ℝ) → Y) (k : Fl × Fl → (Fin 4 × Fin 4) × (ℝ × ℝ)),
      Measurable g → Measurable k → Measurable (g ∘ k) := fun g k hg hk => hg.comp hk
  refine hcomp _ _ ?_ ?_
  · refine measurable_from_prod_countable_right fun t => ?_
    obtain ⟨s, t⟩ := t
    have h1' : ∀ a, Measurable fun p : ℝ × ℝ => f a (.fin p.2) := fun a =>
      (h1 a).comp measurable_snd
    have h2' : ∀ a, Measurable fun p : ℝ × ℝ => f (.fin p.1) a := fun a =>
      (h2 a).comp measurable_fst
    fin_cases s <;> fin_cases t <;>
      first
        | exact h
        | exact h1' .nan
        | exact h2' .nan
        | exact h1' .ninf
        | exact h2' .ninf
        | exact h1' .pinf
        | exact h2' .pinf
        | exact measurable_const (a := f .nan .nan)
        | exact measurable_const (a := f .nan .ninf)
        | exact measurable_const (a := f .nan .pinf)
        | exact measurable_const (a := f .ninf .nan)
        | exact measurable_const (a := f .ninf .ninf)
        | exact measurable_const (a := f .ninf .pinf)
        | exact measurable_const (a := f .pinf .nan)
        | exact measurable_const (a := f .pinf .ninf)
        | exact measurable_const (a := f .pinf .pinf)
  · have hc := measurable_code
    exact ((measurable_fst.comp (hc.comp measurable_fst)).prodMk
      (measurable_fst.comp (hc.comp measurable_snd))).prodMk
      ((measurable_snd.comp (hc.comp measurable_fst)).prodMk
        (measurable_snd.comp (hc.comp measurable_snd)))

theorem measurable_infOfSign : Measurable infOfSign := by
  unfold infOfSign
  refine Measurable.ite (measurableSet_lt measurable_const measurable_id) measurable_const ?_
  exact Measurable.ite (measurableSet_lt measurable_id measurable_const) measurable_const
    measurable_const

theorem measurable_add : Measurable fun p : Fl × Fl => p.1 + p.2 := by
  refine measurable_binary (fun a b => a + b) ?_ (fun a => ?_) fun a => ?_
  · exact measurable_fin.comp (measurable_fst.add measurable_snd)
  · cases a
    · exact measurable_const
    · exact measurable_const
    · exact measurable_const
    · exact measurable_fin.comp (measurable_const.add measurable_id)
  · cases a
    · exact measurable_const
    · exact measurable_const
    · exact measurable_const
    · exact measurable_fin.comp (measurable_id.add measurable_const)

theorem measurable_neg : Measurable fun a : Fl => -a :=
  measurable_unary _ (measurable_fin.comp measurable_id.neg)

instance : MeasurableAdd₂ Fl := ⟨measurable_add⟩
instance : MeasurableNeg Fl := ⟨measurable_neg⟩

theorem _root_.Measurable.fl_sub {f g : Ω → Fl} (hf : Measurable f) (hg : Measurable g) :
    Measurable fun x => f x - g x :=
  hf.add hg.neg

theorem measurable_mul : Measurable fun p : Fl × Fl => p.1 * p.2 := by
  refine measurable_binary (fun a b => a * b) ?_ (fun a => ?_) fun a => ?_
  · exact measurable_fin.comp (measurable_fst.mul measurable_snd)
  · cases a
    · exact measurable_const
    · exact measurable_infOfSign.comp measurable_id.neg
    · exact measurable_infOfSign
    · exact measurable_fin.comp (measurable_const.mul measurable_id)
  · cases a
    · exact measurable_const
    · exact measurable_infOfSign.comp measurable_id.neg
    · exact measurable_infOfSign
    · exact measurable_fin.comp (measurable_id.mul measurable_const)

theorem measurable_div : Measurable fun p : Fl × Fl => p.1 / p.2 := by
  have h0 : MeasurableSet {r : ℝ | r = 0} := measurableSet_singleton 0
  refine measurable_binary (fun a b => a / b) ?_ (fun a => ?_) fun a => ?_
  · change Measurable fun p : ℝ × ℝ => if p.2 = 0 then infOfSign p.1 else fin (p.1 / p.2)
    refine Measurable.ite (measurable_snd h0) (measurable_infOfSign.comp measurable_fst) ?_
    exact measurable_fin.comp (measurable_fst.div measurable_snd)
  · cases a with
    | nan => exact measurable_const
    | ninf =>
      change Measurable fun b : ℝ => if b = 0 then ninf else infOfSign (-b)
      exact Measurable.ite h0 measurable_const (measurable_infOfSign.comp measurable_id.neg)
    | pinf =>
      change Measurable fun b : ℝ => if b = 0 then pinf else infOfSign b
      exact Measurable.ite h0 measurable_const measurable_infOfSign
    | fin a =>
      change Measurable fun b : ℝ => if b = 0 then infOfSign a else fin (a / b)
      exact Measurable.ite h0 measurable_const
        (measurable_fin.comp (measurable_const.div measurable_id))
  · cases a with
    | nan => exact measurable_const
    | ninf => exact measurable_const
    | pinf => exact measurable_const
    | fin b =>
      change Measurable fun a : ℝ => if b = 0 then infOfSign a else fin (a / b)
      refine Measurable.ite (by simp) measurable_infOfSign
        (measurable_fin.comp (measurable_id.div_const b))

theorem measurable_exp : Measurable exp :=
  measurable_unary _ (measurable_fin.comp Real.measurable_exp)

theorem measurable_log : Measurable log := by
  refine measurable_unary _ ?_
  change Measurable fun a : ℝ => if 0 < a then fin (Real.log a) else if a = 0 then ninf else nan
  refine Measurable.ite (measurableSet_lt measurable_const measurable_id)
    (measurable_fin.comp Real.measurable_log) ?_
  exact Measurable.ite (measurableSet_singleton 0) measurable_const measurable_const

theorem measurable_lik : Measurable lik :=
  measurable_unary _ Real.measurable_exp

theorem measurable_sum {ι : Type*} (s : Finset ι) {f : ι → Ω → Fl} (h : ∀ i, Measurable (f i)) :
    Measurable fun x => ∑ i ∈ s, f i x := by
  exact Finset.measurable_sum s fun i _ => h i

theorem measurable_logsumexp {N : ℕ} : Measurable (logsumexp : (Fin N → Fl) → Fl) := by
  unfold logsumexp
  exact measurable_log.comp (measurable_sum _ fun i => measurable_exp.comp (measurable_pi_apply i))

theorem measurable_max : Measurable fun p : Fl × Fl => Fl.max p.1 p.2 := by
  refine measurable_binary (fun a b => Fl.max a b) ?_ (fun a => ?_) fun a => ?_
  · exact measurable_fin.comp (measurable_fst.max measurable_snd)
  · cases a
    · exact measurable_const
    · exact measurable_fin
    · exact measurable_const
    · exact measurable_fin.comp (measurable_const.max measurable_id)
  · cases a
    · exact measurable_const
    · exact measurable_fin
    · exact measurable_const
    · exact measurable_fin.comp (measurable_id.max measurable_const)

theorem measurable_vmax {N : ℕ} : Measurable (vmax : (Fin N → Fl) → Fl) := by
  unfold vmax
  have : ∀ s : Finset (Fin N), Measurable fun v : Fin N → Fl => s.fold Fl.max ninf v := by
    intro s
    induction s using Finset.induction_on with
    | empty => exact measurable_const
    | insert a s ha ih =>
      simp only [Finset.fold_insert ha]
      exact measurable_max.comp ((measurable_pi_apply a).prodMk ih)
  exact this _

theorem measurable_bool {q : Ω → Prop} {b : Ω → Bool} (hb : ∀ x, b x = true ↔ q x)
    (hq : MeasurableSet {x | q x}) : Measurable b := by
  refine measurable_to_bool ?_
  convert hq using 1
  ext x
  simp [hb]

theorem measurable_ltb : Measurable fun p : Fl × Fl => ltb p.1 p.2 := by
  refine measurable_binary (fun a b => ltb a b) ?_ (fun a => ?_) fun a => ?_
  · exact measurable_bool (q := fun p : ℝ × ℝ => p.1 < p.2) (fun p => ltb_iff _ _)
      (measurableSet_lt measurable_fst measurable_snd)
  · refine measurable_bool (q := fun r : ℝ => a < fin r) (fun p => ltb_iff _ _) ?_
    cases a with
    | nan => exact MeasurableSet.empty
    | ninf => exact MeasurableSet.univ
    | pinf => exact MeasurableSet.empty
    | fin a => exact measurableSet_lt (measurable_const (a := a)) measurable_id
  · refine measurable_bool (q := fun r : ℝ => fin r < a) (fun p => ltb_iff _ _) ?_
    cases a with
    | nan => exact MeasurableSet.empty
    | ninf => exact MeasurableSet.empty
    | pinf => exact MeasurableSet.univ
    | fin a => exact measurableSet_lt measurable_id (measurable_const (a := a))

theorem measurable_leb : Measurable fun p : Fl × Fl => leb p.1 p.2 := by
  refine measurable_binary (fun a b => leb a b) ?_ (fun a => ?_) fun a => ?_
  · exact measurable_bool (q := fun p : ℝ × ℝ => p.1 ≤ p.2) (fun p => leb_iff _ _)
      (measurableSet_le measurable_fst measurable_snd)
  · refine measurable_bool (q := fun r : ℝ => a ≤ fin r) (fun p => leb_iff _ _) ?_
    cases a with
    | nan => exact MeasurableSet.empty
    | ninf => exact MeasurableSet.univ
    | pinf => exact MeasurableSet.empty
    | fin a => exact measurableSet_le (measurable_const (a := a)) measurable_id
  · refine measurable_bool (q := fun r : ℝ => fin r ≤ a) (fun p => leb_iff _ _) ?_
    cases a with
    | nan => exact MeasurableSet.empty
    | ninf => exact MeasurableSet.empty
    | pinf => exact MeasurableSet.univ
    | fin a => exact measurableSet_le measurable_id (measurable_const (a := a))

end Fl

namespace Resampling

variable {N n : ℕ}

theorem measurable_weights : Measurable (weights : (Fin N → Fl) → Fin N → Fl) := by
  refine measurable_pi_iff.mpr fun i => ?_
  exact Fl.measurable_exp.comp ((measurable_pi_apply i).fl_sub Fl.measurable_logsumexp)

theorem measurable_cumsum : Measurable (cumsum : (Fin N → Fl) → Fin N → Fl) := by
  refine measurable_pi_iff.mpr fun i => ?_
  exact Fl.measurable_sum _ fun j => measurable_pi_apply j

theorem measurable_sortLt : Measurable fun p : Fl × Fl => sortLt p.1 p.2 := by
  refine Fl.measurable_bool (q := fun p : Fl × Fl => Fl.ltb p.1 p.2 = true ∨
    p.1 ≠ .nan ∧ p.2 = .nan) (fun p => ?_) ?_
  · obtain ⟨a, b⟩ := p
    cases a <;> cases b <;> simp [sortLt]
  · have hn : MeasurableSet {a : Fl | a = .nan} := by
      have : Measurable fun a : Fl => (Fl.code a).1 := Fl.measurable_code.fst
      convert this (measurableSet_singleton 0) using 1
      ext a
      cases a <;> simp [Fl.code]
    exact (Fl.measurable_ltb (measurableSet_singleton true)).union
      ((measurable_fst hn).compl.inter (measurable_snd hn))

/-- The inner loop of the CPU inverse distribution function, jointly measurable. -/
theorem measurable_advance : ∀ (k j : ℕ), N - j = k →
    Measurable fun q : ((Fin N → Fl) × Fl) × Fl => advance q.1.1 q.1.2 j q.2
  | k, j, hk => by
    by_cases hj : j + 1 < N
    · have heq : (fun q : ((Fin N → Fl) × Fl) × Fl => advance q.1.1 q.1.2 j q.2) =
          fun q => if Fl.ltb q.2 q.1.2 = true then
            advance q.1.1 q.1.2 (j + 1) (q.2 + q.1.1 ⟨j + 1, hj⟩) else (j, q.2) := by
        funext q
        rw [advance]
        by_cases h : Fl.ltb q.2 q.1.2 = true <;> simp [h, hj]
      rw [heq]
      refine Measurable.ite ?_ ?_ ?_
      · exact (Fl.measurable_ltb.comp (measurable_snd.prodMk
          (measurable_snd.comp measurable_fst))) (measurableSet_singleton true)
      · have h1 := measurable_advance (k - 1) (j + 1) (by omega)
        have h2 : Measurable fun q : ((Fin N → Fl) × Fl) × Fl => q.2 + q.1.1 ⟨j + 1, hj⟩ :=
          measurable_snd.add ((measurable_pi_apply _).comp (measurable_fst.comp measurable_fst))
        have h3 : Measurable fun q : ((Fin N → Fl) × Fl) × Fl => (q.1, q.2 + q.1.1 ⟨j + 1, hj⟩) :=
          measurable_fst.prodMk h2
        exact h1.comp h3
      · exact measurable_const.prodMk measurable_snd
    · have heq : (fun q : ((Fin N → Fl) × Fl) × Fl => advance q.1.1 q.1.2 j q.2) =
          fun q => (j, q.2) := by
        funext q
        rw [advance]
        simp [hj]
      rw [heq]
      exact measurable_const.prodMk measurable_snd
termination_by k => k

theorem measurable_advance' : Measurable fun q : ((Fin N → Fl) × Fl) × (ℕ × Fl) =>
    advance q.1.1 q.1.2 q.2.1 q.2.2 := by
  have h : Measurable fun q : ℕ × (((Fin N → Fl) × Fl) × Fl) =>
      advance q.2.1.1 q.2.1.2 q.1 q.2.2 :=
    measurable_from_prod_countable_right fun j => measurable_advance _ j rfl
  exact h.comp ((measurable_fst.comp measurable_snd).prodMk
    (measurable_fst.prodMk (measurable_snd.comp measurable_snd)))

theorem measurable_numbaState [NeZero N] : ∀ (m : ℕ) (h : m ≤ n),
    Measurable fun q : (Fin n → Fl) × (Fin N → Fl) => numbaState q.1 q.2 m h
  | 0, _ => by
    simp only [numbaState]
    exact measurable_const.prodMk ((measurable_pi_apply _).comp measurable_snd)
  | m + 1, h => by
    simp only [numbaState]
    have := measurable_numbaState m (Nat.le_of_succ_le h)
    have h2 : Measurable fun q : (Fin n → Fl) × (Fin N → Fl) =>
        (((q.2, q.1 ⟨m, h⟩) : (Fin N → Fl) × Fl), numbaState q.1 q.2 m (Nat.le_of_succ_le h)) :=
      (measurable_snd.prodMk ((measurable_pi_apply _).comp measurable_fst)).prodMk this
    exact measurable_advance'.comp h2

theorem measurable_searchsorted : Measurable fun q : (Fin N → Fl) × Fl => searchsorted q.1 q.2 := by
  have : (fun q : (Fin N → Fl) × Fl => searchsorted q.1 q.2) =
      fun q => ∑ i, if sortLt (q.1 i) q.2 = true then 1 else 0 := by
    funext q
    rw [searchsorted, Finset.card_filter]
  rw [this]
  refine Finset.measurable_sum _ fun i _ => ?_
  refine Measurable.ite ?_ measurable_const measurable_const
  have h1 : Measurable fun q : (Fin N → Fl) × Fl => q.1 i :=
    (measurable_pi_apply i).comp measurable_fst
  have h2 : Measurable fun q : (Fin N → Fl) × Fl => sortLt (q.1 i) q.2 :=
    measurable_sortLt.comp (h1.prodMk measurable_snd)
  exact h2 (measurableSet_singleton true)

/-- The inverse distribution function is jointly measurable in draws and log-weights. -/
theorem measurable_inverseCdf [NeZero N] (pf : Platform) :
    Measurable fun q : (Fin n → Fl) × (Fin N → Fl) => inverseCdf pf q.1 q.2 := by
  refine measurable_pi_iff.mpr fun m => ?_
  have hc : Measurable (clipIdx : ℕ → Fin N) := measurable_of_countable _
  have hw : Measurable fun q : (Fin n → Fl) × (Fin N → Fl) => weights q.2 :=
    measurable_weights.comp measurable_snd
  cases pf with
  | cpu =>
    have h1 : Measurable fun q : (Fin n → Fl) × (Fin N → Fl) =>
        numbaState q.1 (weights q.2) (m + 1) m.isLt :=
      (measurable_numbaState (m + 1) m.isLt).comp (measurable_fst.prodMk hw)
    exact hc.comp h1.fst
  | other =>
    have h1 : Measurable fun q : (Fin n → Fl) × (Fin N → Fl) => cumsum (weights q.2) :=
      measurable_cumsum.comp hw
    have h2 : Measurable fun q : (Fin n → Fl) × (Fin N → Fl) => q.1 m :=
      (measurable_pi_apply m).comp measurable_fst
    have h3 : Measurable fun q : (Fin n → Fl) × (Fin N → Fl) =>
        searchsorted (cumsum (weights q.2)) (q.1 m) :=
      Measurable.comp (g := fun p : (Fin N → Fl) × Fl => searchsorted p.1 p.2)
        (f := fun q : (Fin n → Fl) × (Fin N → Fl) => (cumsum (weights q.2), q.1 m))
        measurable_searchsorted (h1.prodMk h2)
    change Measurable fun q : (Fin n → Fl) × (Fin N → Fl) =>
      clipIdx (searchsorted (cumsum (weights q.2)) (q.1 m))
    exact hc.comp h3

end Resampling

end

end Cuthbert
