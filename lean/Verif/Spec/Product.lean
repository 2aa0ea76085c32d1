import Verif.Spec.HMM
import Verif.Spec.LGSSM

/-!
# Specification: two models side by side, as one

The state of the joint model is the pair of the states, which evolve and are observed independently of each other.
-/

namespace Cuthbert.Spec
open Matrix

variable {nx ny nx' ny' N M : ℕ}

/-- The step `j` does to the coordinates `e (inl i)` what `s` does and to the coordinates `e (inr i)` what `s'` does, with
independent noises, and observes both, in the components `o (inl i)` and `o (inr i)`. -/
structure StepPair (e : Fin nx ⊕ Fin nx' ≃ Fin N) (o : Fin ny ⊕ Fin ny' ≃ Fin M) (s : Step nx ny) (s' : Step nx' ny')
    (j : Step N M) : Prop where
  F : j.F.submatrix e e = fromBlocks s.F 0 0 s'.F
  c : j.c ∘ e = Sum.elim s.c s'.c
  Q : (j.cholQ * j.cholQᵀ).submatrix e e = fromBlocks (s.cholQ * s.cholQᵀ) 0 0 (s'.cholQ * s'.cholQᵀ)
  H : j.H.submatrix o e = fromBlocks s.H 0 0 s'.H
  d : j.d ∘ o = Sum.elim s.d s'.d
  R : (j.cholR * j.cholRᵀ).submatrix o o = fromBlocks (s.cholR * s.cholRᵀ) 0 0 (s'.cholR * s'.cholRᵀ)
  y : j.y ∘ o = Sum.elim s.y s'.y

/-- Two hidden Markov models side by side; `e` numbers the pairs of states. -/
structure HMM.Pair {X X' Y : Type*} (e : X × X' ≃ Y) (M : HMM X) (M' : HMM X') (J : HMM Y) : Prop where
  init : ∀ i i', J.init (e (i, i')) = M.init i * M'.init i'
  trans : ∀ t i i' j j', J.trans t (e (i, i')) (e (j, j')) = M.trans t i j * M'.trans t i' j'
  lik : ∀ t j j', J.lik t (e (j, j')) = M.lik t j * M'.lik t j'

end Cuthbert.Spec
