import Mathlib.Algebra.Group.Fin.Basic
import Verif.Lemmas.ResamplingLaw

/-!
# Lemmas on conditional resampling
-/

namespace Cuthbert

noncomputable section

namespace Fl

/-! ### Logarithms of non-negative numbers -/

theorem isLog_log {a : ℝ} (h : 0 ≤ a) : (log (fin a)).IsLog := by
  rcases h.eq_or_lt with h | h
  · rw [← h, log_zero]; trivial
  · rw [log_fin a h]; trivial

theorem lik_log {a : ℝ} (h : 0 ≤ a) : (log (fin a)).lik = a := by
  rcases h.eq_or_lt with h | h
  · rw [← h, log_zero]; rfl
  · rw [log_fin a h]; exact Real.exp_log h

theorem exp_log {a : ℝ} (h : 0 ≤ a) : exp (log (fin a)) = fin a := by
  rw [exp_of_isLog (isLog_log h), lik_log h]

theorem log_lik {a : Fl} (h : a.IsLog) : log (fin a.lik) = a := by
  cases a with
  | nan => exact h.elim
  | pinf => exact h.elim
  | ninf => exact log_zero
  | fin r => rw [lik, log_fin _ (Real.exp_pos r), Real.log_exp]

theorem log_sub_log {a b : ℝ} (ha : 0 ≤ a) (hb : 0 < b) :
    log (fin a) - log (fin b) = log (fin (a / b)) := by
  rw [log_fin b hb]
  rcases ha.eq_or_lt with h | h
  · rw [← h, zero_div, log_zero, ninf_sub_fin]
  · rw [log_fin a h, log_fin _ (div_pos h hb), Real.log_div h.ne' hb.ne', fin_sub]

theorem logsumexp_log {ι : Type*} [Fintype ι] {a : ι → ℝ} (h : ∀ i, 0 ≤ a i) :
    logsumexp (fun i => log (fin (a i))) = log (fin (∑ i, a i)) := by
  rw [logsumexp]
  simp only [exp_log (h _), sum_fin]

end Fl

namespace Resampling

variable {N n : ℕ}

/-- `jnp.roll` in modular index arithmetic. -/
theorem roll_sub {α : Type*} [NeZero n] (x : Fin n → α) (s : ℤ) (p J : Fin n)
    (hs : s ≡ (p : ℕ) - (J : ℕ) [ZMOD n]) (j : Fin n) : roll x s j = x (j - (p - J)) := by
  rw [roll]
  congr 1
  have hp := p.isLt
  have hJ := J.isLt
  have hn : (0 : ℤ) < n := by exact_mod_cast j.pos
  apply Fin.ext
  zify
  rw [Int.toNat_of_nonneg (Int.emod_nonneg _ hn.ne'), Fin.sub_def, Fin.sub_def]
  push_cast [Nat.cast_sub (Nat.mod_lt (n - (J : ℕ) + p) j.pos).le, Nat.cast_sub hJ.le]
  have h1 : ((n : ℤ) - (J : ℕ) + (p : ℕ)) % n ≡ (p : ℕ) - (J : ℕ) [ZMOD n] := by
    refine (Int.mod_modEq _ _).trans ?_
    rw [Int.modEq_iff_dvd]
    exact ⟨-1, by ring⟩
  change _ ≡ _ [ZMOD n]
  have h2 : ((n : ℤ) - ((n : ℤ) - (J : ℕ) + (p : ℕ)) % n + (j : ℕ)) ≡ 0 - s + (j : ℕ) [ZMOD n] := by
    refine Int.ModEq.add (Int.ModEq.sub ?_ (h1.trans hs.symm)) rfl
    rw [Int.modEq_zero_iff_dvd]
  refine Int.ModEq.trans ?_ h2.symm
  rw [show (0 : ℤ) - s + (j : ℕ) = (j : ℕ) - s by ring]

section

variable [NeZero N]

theorem exists_max {l : Fin N → Fl} (hl : IsLogits l) :
    ∃ M : ℝ, 0 < M ∧ Fl.vmax l = Fl.log (Fl.fin M) ∧
      ∀ i, nw l i / nwMax l = (l i).lik / M := by
  obtain ⟨M, hM, ⟨i₀, hi₀⟩, hmax⟩ := vmax_fin hl
  have hS := sum_lik_pos hl
  have hlik : ∀ i, (l i).lik ≤ Real.exp M := by
    intro i
    have := hl.1 i
    cases hli : l i with
    | nan => rw [hli] at this; exact this.elim
    | pinf => rw [hli] at this; exact this.elim
    | ninf => simpa [Fl.lik] using Real.exp_nonneg M
    | fin r => simpa [Fl.lik] using hmax i r hli
  have hw : nwMax l = Real.exp M / ∑ j, (l j).lik := by
    apply le_antisymm
    · refine Finset.sup'_le _ _ fun j _ => ?_
      rw [nw]
      gcongr
      exact hlik j
    · refine le_trans (le_of_eq ?_) (Finset.le_sup' (nw l) (Finset.mem_univ i₀))
      rw [nw, hi₀, Fl.lik]
  refine ⟨Real.exp M, Real.exp_pos M, ?_, fun i => ?_⟩
  · rw [hM, Fl.log_fin _ (Real.exp_pos M), Real.log_exp]
  · rw [hw, nw]
    field_simp

/-- The slot that receives the pivot is drawn in proportion to the probability that the slot
holds the pivot under killing resampling. -/
theorem pivotWeights_eq {l : Fin N → Fl} (hl : IsLogits l) {i : Fin N} (hi : 0 < nw l i)
    (J : Fin N) : pivotWeights l N i J = Fl.fin (killingSlot l J i / (N * nw l i)) := by
  obtain ⟨M, hM, hvm, hratio⟩ := exists_max hl
  have hN : (0 : ℝ) < N := by exact_mod_cast NeZero.pos N
  obtain ⟨s, hs⟩ : ∃ s : Fin N → ℝ, s = fun j => nw l j / nwMax l := ⟨_, rfl⟩
  have hs0 : ∀ j, 0 ≤ s j ∧ s j ≤ 1 := fun j => hs ▸ nw_div_nwMax_mem hl j
  have h1 : ∀ j, log1mexp (l j - Fl.vmax l) - Fl.log (Fl.fin N) =
      Fl.log (Fl.fin ((1 - s j) / N)) := by
    intro j
    rw [log1mexp, hvm, ← Fl.log_lik (hl.1 j), Fl.log_sub_log (Fl.lik_nonneg _) hM,
      Fl.exp_log (by positivity [Fl.lik_nonneg (l j)]), ← hratio, Fl.fin_sub,
      Fl.log_sub_log _ hN, hs]
    have := (nw_div_nwMax_mem hl j).2
    linarith
  have hp0 : ∀ j, 0 ≤ (1 - s j) / N := fun j => div_nonneg (by linarith [(hs0 j).2]) hN.le
  obtain ⟨q, hq⟩ : ∃ q : Fin N → ℝ, q = Function.update (fun j => (1 - s j) / N) i 0 := ⟨_, rfl⟩
  have hq0 : ∀ j, 0 ≤ q j := by
    intro j
    rw [hq, Function.update_apply]
    split_ifs
    exacts [le_rfl, hp0 j]
  have hupd : Function.update (fun j => log1mexp (l j - Fl.vmax l) - Fl.log (Fl.fin N)) i Fl.ninf =
      fun j => Fl.log (Fl.fin (q j)) := by
    funext j
    rw [hq, Function.update_apply, Function.update_apply]
    split_ifs
    · rw [Fl.log_zero]
    · exact h1 j
  obtain ⟨p, hp⟩ : ∃ p : Fin N → ℝ, p = fun j => killingSlot l j i / (N * nw l i) := ⟨_, rfl⟩
  have hpsum : ∑ j, p j = 1 := by
    rw [hp, ← Finset.sum_div, sum_killingSlot hl, div_self (mul_pos hN hi).ne']
  have hp0' : ∀ j, 0 ≤ p j := fun j => by
    rw [hp]; exact div_nonneg (killingSlot_nonneg hl j i) (mul_pos hN hi).le
  have hpq : ∀ j, j ≠ i → q j = p j := by
    intro j hj
    simp only [hq, hp, Function.update_of_ne hj, killingSlot, if_neg hj.symm, hs]
    field_simp
    ring
  have hsumq : ∑ j, q j = 1 - p i := by
    rw [← hpsum, ← Finset.add_sum_erase _ q (Finset.mem_univ i),
      ← Finset.add_sum_erase _ p (Finset.mem_univ i),
      Finset.sum_congr rfl fun j hj => hpq j (Finset.ne_of_mem_erase hj), hq, Function.update_self]
    ring
  have hupd2 : Function.update (fun j => Fl.log (Fl.fin (q j))) i
      (log1mexp (Fl.logsumexp fun j => Fl.log (Fl.fin (q j)))) =
      fun j => Fl.log (Fl.fin (p j)) := by
    funext j
    rw [Function.update_apply]
    split_ifs with hj
    · rw [Fl.logsumexp_log hq0, log1mexp, Fl.exp_log (Finset.sum_nonneg fun j _ => hq0 j), hsumq,
        Fl.fin_sub, hj, sub_sub_cancel]
    · rw [hpq j hj]
  rw [pivotWeights]
  simp only [hupd, hupd2, Fl.logsumexp_log hp0']
  rw [hpsum, Fl.log_sub_log (hp0' J) one_pos, div_one, Fl.exp_log (hp0' J), hp]

end

end Resampling

end

end Cuthbert
