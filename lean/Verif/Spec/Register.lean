import Verif.Spec.HMM
import Verif.Spec.LGSSM
import Mathlib.Data.Matrix.ColumnRowPartitioned

/-!
# Specification: a register carried along with the state

A register holds a linear function of the path: at step `t + 1` its content `w` becomes `A t x_t + B t w`. With `A t = 1`
and `B t = 0` it stores the state, with `A t = 0` and `B t = 1` it keeps its content, with both `1` it adds up the states.
-/

namespace Cuthbert.Spec
open Matrix

variable {nx ny k N : ℕ}

/-- The content of the register at time `t` if the path is `p` and the content was `w` at the start. -/
def register (A : ℕ → Matrix (Fin k) (Fin nx) ℝ) (B : ℕ → Matrix (Fin k) (Fin k) ℝ) (w : Fin k → ℝ)
    (p : ℕ → Fin nx → ℝ) : ℕ → Fin k → ℝ
  | 0 => w
  | t + 1 => A t *ᵥ p t + B t *ᵥ register A B w p t

/-- The step `j` does to the coordinates `e (inl i)` what `s` does, observes what `s` observes, and sets the coordinates
`e (inr i)`, without noise, to `A x + B w`. -/
structure StepRegister (e : Fin nx ⊕ Fin k ≃ Fin N) (A : Matrix (Fin k) (Fin nx) ℝ) (B : Matrix (Fin k) (Fin k) ℝ)
    (s : Step nx ny) (j : Step N ny) : Prop where
  F : j.F.submatrix e e = fromBlocks s.F 0 A B
  c : j.c ∘ e = Sum.elim s.c 0
  Q : (j.cholQ * j.cholQᵀ).submatrix e e = fromBlocks (s.cholQ * s.cholQᵀ) 0 0 0
  H : j.H.submatrix id e = fromCols s.H 0
  d : j.d = s.d
  R : j.cholR = s.cholR
  y : j.y = s.y

namespace HMM
variable {X W Y : Type*}

/-- The content of a register that becomes `upd t (x t) w` at step `t + 1`, at the end of the path `x`. -/
def register (upd : ℕ → X → W → W) (w : W) : (T : ℕ) → (Fin (T + 1) → X) → W
  | 0, _ => w
  | T + 1, x => upd T (x (Fin.last T).castSucc) (register upd w T fun i => x i.castSucc)

/-- The hidden Markov model `J` is `M` with a register that holds `w` at the start; `e` numbers the pairs of a state and a
content of the register. -/
structure WithRegister [DecidableEq W] (e : X × W ≃ Y) (upd : ℕ → X → W → W) (w : W) (M : HMM X) (J : HMM Y) : Prop where
  init : ∀ i a, J.init (e (i, a)) = if a = w then M.init i else 0
  trans : ∀ t i a j b, J.trans t (e (i, a)) (e (j, b)) = if b = upd t i a then M.trans t i j else 0
  lik : ∀ t j b, J.lik t (e (j, b)) = M.lik t j

end HMM

end Cuthbert.Spec
