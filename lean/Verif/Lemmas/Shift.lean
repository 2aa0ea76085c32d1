import Verif.Lemmas.SMCResamplers

/-!
# Adding a constant to log-weights
-/

namespace Cuthbert

noncomputable section

namespace Fl

theorem exp_add_fin (a : Fl) (c : ℝ) : exp (a + fin c) = exp a * fin (Real.exp c) := by
  have := Real.exp_pos c
  cases a <;> simp [add_def, Fl.add, exp, mul_def, Fl.mul, infOfSign, Real.exp_add, this]

theorem add_mul_fin (a b : Fl) {c : ℝ} (hc : 0 < c) : (a + b) * fin c = a * fin c + b * fin c := by
  cases a <;> cases b <;> simp [add_def, Fl.add, mul_def, Fl.mul, infOfSign, add_mul, hc, not_lt.mpr hc.le]

theorem sum_mul_fin {ι : Type*} (s : Finset ι) (f : ι → Fl) {c : ℝ} (hc : 0 < c) :
    ∑ i ∈ s, f i * fin c = (∑ i ∈ s, f i) * fin c := by
  classical
  induction s using Finset.induction_on with
  | empty => simp [zero_def]
  | insert a s ha ih => rw [Finset.sum_insert ha, Finset.sum_insert ha, ih, add_mul_fin _ _ hc]

theorem log_mul_exp (a : Fl) (c : ℝ) : log (a * fin (Real.exp c)) = log a + fin c := by
  have hc := Real.exp_pos c
  cases a with
  | nan => rfl
  | pinf => simp [mul_def, Fl.mul, infOfSign, hc, log, add_def, Fl.add]
  | ninf => simp [mul_def, Fl.mul, infOfSign, hc, not_lt.mpr hc.le, log]
  | fin r =>
    rw [fin_mul]
    rcases lt_trichotomy r 0 with h | h | h
    · have h1 : r * Real.exp c < 0 := mul_neg_of_neg_of_pos h hc
      rw [log, log, if_neg (by linarith), if_neg h1.ne, if_neg (by linarith), if_neg h.ne]
      rfl
    · subst h
      rw [zero_mul, log_zero]
      rfl
    · rw [log_fin _ (mul_pos h hc), log_fin _ h, Real.log_mul h.ne' hc.ne', Real.log_exp, fin_add]

theorem logsumexp_shift {ι : Type*} [Fintype ι] (l : ι → Fl) (c : ℝ) :
    logsumexp (fun i => l i + fin c) = logsumexp l + fin c := by
  simp only [logsumexp, exp_add_fin]
  rw [sum_mul_fin _ _ (Real.exp_pos c), log_mul_exp]

theorem add_fin_sub_add_fin (a b : Fl) (c d : ℝ) : (a + fin c) - (b + fin d) = a - b + fin (c - d) := by
  cases a <;> cases b <;> simp [sub_def, neg_def, Fl.neg, add_def, Fl.add]
  ring

theorem max_add_fin (a b : Fl) (c : ℝ) : Fl.max (a + fin c) (b + fin c) = Fl.max a b + fin c := by
  cases a <;> cases b <;> simp [add_def, Fl.add, Fl.max, max_add_add_right]

theorem vmax_shift {n : ℕ} (l : Fin n → Fl) (c : ℝ) :
    vmax (fun i => l i + fin c) = vmax l + fin c := by
  have h : ∀ s : Finset (Fin n), s.fold Fl.max ninf (fun i => l i + fin c) =
      s.fold Fl.max ninf l + fin c := by
    intro s
    classical
    induction s using Finset.induction_on with
    | empty => rfl
    | insert a s ha ih => rw [Finset.fold_insert ha, Finset.fold_insert ha, ih, max_add_fin]
  exact h _

theorem two_mul_add_fin (a : Fl) (c : ℝ) : fin 2 * (a + fin c) = fin 2 * a + fin (2 * c) := by
  have h : ¬ (2 : ℝ) < 0 := by norm_num
  cases a <;> simp [add_def, Fl.add, mul_def, Fl.mul, infOfSign, mul_add, h]

end Fl

namespace SMC
open Resampling

variable {K X : Type} {N : ℕ}

/-- Adding a constant to all log-weights changes no index, and shifts the new log-weights. -/
def ShiftInvariant (I : K → (Fin N → Fl) → Fin N → Fin N) (L : K → (Fin N → Fl) → Fin N → Fl) : Prop :=
  ∀ k l (c : ℝ), I k (fun i => l i + Fl.fin c) = I k l ∧
    ∃ d : ℝ, L k (fun i => l i + Fl.fin c) = fun i => L k l i + Fl.fin d

theorem weights_shift (l : Fin N → Fl) (c : ℝ) : weights (fun i => l i + Fl.fin c) = weights l := by
  funext i
  simp only [weights, Fl.logsumexp_shift, Fl.add_fin_sub_add_fin, sub_self]
  rw [← Fl.zero_def, add_zero]

theorem inverseCdf_shift [NeZero N] {n : ℕ} (pf : Platform) (su : Fin n → Fl) (l : Fin N → Fl) (c : ℝ) :
    inverseCdf pf su (fun i => l i + Fl.fin c) = inverseCdf pf su l := by
  cases pf <;> simp only [inverseCdf, weights_shift]

theorem logEss_shift (l : Fin N → Fl) (c : ℝ) : logEss (fun i => l i + Fl.fin c) = logEss l := by
  simp only [logEss, Fl.two_mul_add_fin, Fl.logsumexp_shift, Fl.add_fin_sub_add_fin, sub_self]
  rw [← Fl.zero_def, add_zero]

variable [NeZero N]

omit [NeZero N] in
theorem zeroLogits_shift (k : K) (l : Fin N → Fl) (c : ℝ) : ∃ d : ℝ,
    zeroLogits k (fun i => l i + Fl.fin c) = fun i => zeroLogits k l i + Fl.fin d :=
  ⟨0, funext fun _ => (add_zero (0 : Fl)).symm⟩

theorem shiftInvariant_multinomial (rng : Rng K) (pf : Platform) :
    ShiftInvariant (N := N) (fun k l => multinomialIdx rng pf l N k) zeroLogits := fun k l c => by
  refine ⟨?_, zeroLogits_shift k l c⟩
  funext m
  simp only [multinomialIdx, inverseCdf_shift]

theorem shiftInvariant_systematic (rng : Rng K) (pf : Platform) :
    ShiftInvariant (N := N) (fun k l => systematicIdx rng pf l N k) zeroLogits := fun k l c => by
  refine ⟨?_, zeroLogits_shift k l c⟩
  simp only [systematicIdx, inverseCdf_shift]

theorem shiftInvariant_killing (rng : Rng K) (pf : Platform) :
    ShiftInvariant (N := N) (fun k l => killingIdx rng pf l k) zeroLogits := fun k l c => by
  refine ⟨?_, zeroLogits_shift k l c⟩
  funext m
  simp only [killingIdx, (shiftInvariant_multinomial rng pf _ l c).1, surv, Fl.vmax_shift,
    Fl.add_fin_sub_add_fin, sub_self, ← Fl.zero_def, add_zero]
  rfl

omit [NeZero N] in
theorem ShiftInvariant.adaptive {I : K → (Fin N → Fl) → Fin N → Fin N}
    {L : K → (Fin N → Fl) → Fin N → Fl} (h : ShiftInvariant I L) (θ : ℝ) :
    ShiftInvariant (adaptIdx I θ) (adaptLogits L θ) := fun k l c => by
  simp only [adaptIdx, adaptLogits, logEss_shift]
  split_ifs
  · exact h k l c
  · exact ⟨rfl, c, rfl⟩

end SMC

end

end Cuthbert
