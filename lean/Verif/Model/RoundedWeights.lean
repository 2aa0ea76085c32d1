import Verif.Model.RoundedDiscrete
import Verif.Model.RoundedResampling

/-!
# From log weights to indices with rounded arithmetic
-/

namespace Cuthbert.Resampling
open Cuthbert Discrete

variable {N n : ℕ}

noncomputable section

/-- `jax.scipy.special.logsumexp` as JAX calculates it: the maximum, if it is finite, is subtracted first and added last. -/
def logsumexpWith (A : Arith) (l : Fin N → Fl) : Fl :=
  let m := match Fl.vmax l with
    | .fin m => .fin m
    | _ => .fin 0
  A.add (A.log (A.sum fun i => A.exp (A.sub (l i) m))) m

/-- `cuthbertlib/resampling/utils.py:33`, the normalised weights. -/
def weightsWith (A : Arith) (l : Fin N → Fl) : Fin N → Fl := fun i => A.exp (A.sub (l i) (logsumexpWith A l))

/-- `cuthbertlib/resampling/utils.py:15-36`, `inverse_cdf` on a CPU, for weights that are numbers. -/
def inverseCdfWith [NeZero N] (A : Arith) (fl : ℝ → ℝ) (su : Fin n → ℝ) (l : Fin N → Fl) : Fin n → Fin N :=
  inverseCdfRounded fl su fun i => match weightsWith A l i with
    | .fin w => w
    | _ => 0

end

end Cuthbert.Resampling
