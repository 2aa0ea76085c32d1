import Verif.Spec.FeynmanKac
import Verif.Spec.Random
import Verif.Model.SMC

/-!
# Specification: the Feynman-Kac model of a particle filter, genealogies, resampling contracts
-/

namespace Cuthbert.SMC
open MeasureTheory Resampling
open scoped ENNReal

noncomputable section

variable {K X Inp : Type} {N : ℕ}

section model

variable [MeasurableSpace K] [MeasurableSpace X]

/-- The initial distribution of a model: the law of `init_sample` for a fresh key. -/
def FKModel.init (mdl : FKModel K X Inp) (P : Measure K) (u : Inp) : Measure X :=
  P.map fun k => mdl.initSample k u

/-- The transition and the potential of a model with inputs `u`: the kernel is the law of
`propagate_sample` for a fresh key, the potential is the exponential of `log_potential`. -/
def FKModel.step (mdl : FKModel K X Inp) (P : Measure K) (u : Inp) : FKStep X where
  kernel x := P.map fun k => mdl.propagate k x u
  pot x x' := ENNReal.ofReal (mdl.logPotential x x' u).lik

/-- The functions of the model are measurable for the inputs `u` and the log potential is a number or
`-∞`. -/
structure FKModel.Regular (mdl : FKModel K X Inp) (u : Inp) : Prop where
  propagate : Measurable fun q : K × X => mdl.propagate q.1 q.2 u
  logPotential : Measurable fun q : X × X => mdl.logPotential q.1 q.2 u
  isLog : ∀ x x', (mdl.logPotential x x' u).IsLog

end model

/-- The index at time `s` of the ancestor of particle `i` at time `t`, if `A t i` is the index at time
`t - 1` of the parent of particle `i` at time `t`. For `s ≥ t` it is `i`. -/
def lineage (A : ℕ → Fin N → Fin N) : ℕ → Fin N → ℕ → Fin N
  | 0, i, _ => i
  | t + 1, i, s => if s ≤ t then lineage A t (A (t + 1) i) s else i

/-- The ancestral path of particle `i` at time `t`, extended by its end point. -/
def ancestralPath (xs : ℕ → Fin N → X) (A : ℕ → Fin N → Fin N) (t : ℕ) (i : Fin N) : ℕ → X :=
  fun s => xs (min s t) (lineage A t i s)

/-- The estimate of the unnormalised expectation of a function of the path up to time `t`: the
weighted average over the ancestral paths, times the normalising constant. -/
def pathEst (S : ℕ → PFState K X Inp N) (t : ℕ) (f : (ℕ → X) → ℝ≥0∞) : ℝ≥0∞ :=
  ENNReal.ofReal (S t).logZ.lik * ∑ i, ENNReal.ofReal (nw (S t).logWeights i) *
    f (ancestralPath (fun s => (S s).particles) (fun s => (S s).ancestors) t i)

/-- The weighted average over the ancestral paths. -/
def average (S : ℕ → PFState K X Inp N) (t : ℕ) (f : (ℕ → X) → ℝ) : ℝ :=
  ∑ i, nw (S t).logWeights i * f (ancestralPath (fun s => (S s).particles) (fun s => (S s).ancestors) t i)

/-- Resampling as many particles as there are never raises and is described by random indices `I` and new
log-weights `L` that do not depend on the particles. -/
def Uses (R : Resampler K N X) (I : K → (Fin N → Fl) → Fin N → Fin N)
    (L : K → (Fin N → Fl) → Fin N → Fl) : Prop :=
  ∀ k l pos, R k l pos N = .ok ⟨I k l, L k l, fun m => pos (I k l m)⟩

/-- Weighted unbiasedness: the expected total new weight of the copies of particle `i` is its old
weight. -/
structure UnbiasedWeights [MeasurableSpace K] (P : Measure K) (I : K → (Fin N → Fl) → Fin N → Fin N)
    (L : K → (Fin N → Fl) → Fin N → Fl) : Prop where
  measurable_idx : Measurable fun q : K × (Fin N → Fl) => I q.1 q.2
  measurable_logits : Measurable fun q : K × (Fin N → Fl) => L q.1 q.2
  isLogits : ∀ k l, IsLogits l → IsLogits (L k l)
  unbiased : ∀ l, IsLogits l → ∀ i,
    ∫⁻ k, ∑ m, ENNReal.ofReal (nw (L k l) m) * (if I k l m = i then 1 else 0) ∂P =
      ENNReal.ofReal (nw l i)

/-- Resampling equally weighted particles almost surely changes nothing. -/
def KeepsEqual [MeasurableSpace K] (P : Measure K) (I : K → (Fin N → Fl) → Fin N → Fin N)
    (L : K → (Fin N → Fl) → Fin N → Fl) : Prop :=
  ∀ᵐ k ∂P, ∀ m, I k (fun _ => 0) m = m ∧ nw (L k fun _ => 0) m = (N : ℝ)⁻¹

/-- When every particle has weight zero, resampling still returns usable weights. -/
def RevivesDead (L : K → (Fin N → Fl) → Fin N → Fl) : Prop :=
  ∀ k l, (∀ i, l i = Fl.ninf) → IsLogits (L k l)

end

end Cuthbert.SMC
