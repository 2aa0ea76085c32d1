import Verif.Model.Resampling

/-!
# The inverse distribution function with rounded arithmetic

The model in `Model/Resampling.lean` adds weights exactly. Here every addition of the CPU implementation is followed by a
rounding `fl`. The weights are numbers (no `nan` or infinity), and the comparisons are exact, as they are in floating
point.
-/

namespace Cuthbert.Resampling

variable {N n : ℕ}

/-- `cuthbertlib/resampling/utils.py:80-82`, the inner `while` loop. -/
noncomputable def advanceRounded (fl : ℝ → ℝ) (ws : Fin N → ℝ) (u : ℝ) (j : ℕ) (s : ℝ) : ℕ × ℝ :=
  if h : s < u ∧ j + 1 < N then advanceRounded fl ws u (j + 1) (fl (s + ws ⟨j + 1, h.2⟩)) else (j, s)
termination_by N - j

/-- `cuthbertlib/resampling/utils.py:74-83`: the loop variables `j` and `s` after the first `m` iterations of the outer
loop. -/
noncomputable def numbaStateRounded [NeZero N] (fl : ℝ → ℝ) (su : Fin n → ℝ) (ws : Fin N → ℝ) : (m : ℕ) → m ≤ n → ℕ × ℝ
  | 0, _ => (0, ws 0)
  | m + 1, h =>
    let js := numbaStateRounded fl su ws m (Nat.le_of_succ_le h)
    advanceRounded fl ws (su ⟨m, h⟩) js.1 js.2

/-- `cuthbertlib/resampling/utils.py:50-83`, `_inverse_cdf_cpu` and `_inverse_cdf_numba`. -/
noncomputable def inverseCdfRounded [NeZero N] (fl : ℝ → ℝ) (su : Fin n → ℝ) (ws : Fin N → ℝ) : Fin n → Fin N :=
  fun m => clipIdx (numbaStateRounded fl su ws (m + 1) m.isLt).1

end Cuthbert.Resampling
