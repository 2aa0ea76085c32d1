import Verif.Model.Fl
import Verif.Model.Interface

/-!
# Discrete hidden Markov models

Models `cuthbertlib/discrete/filtering.py`, `cuthbertlib/discrete/smoothing.py`,
`cuthbert/discrete/filter.py` and `cuthbert/discrete/smoother.py`. The number of states is
`n + 1` (the code indexes state 0, so at least one state is needed). All scalars are `Fl`, so
division by zero, `log 0` and `-inf` log-likelihoods behave as in the code.
-/

namespace Cuthbert.Discrete
open Cuthbert

variable {n : ℕ} {Inp K : Type*}

noncomputable section

/-- `cuthbertlib/discrete/filtering.py:10-14`, `FilterScanElement`. -/
structure FilterScanElement (n : ℕ) where
  f : Fin (n + 1) → Fin (n + 1) → Fl
  logG : Fin (n + 1) → Fl

/-- `cuthbertlib/discrete/filtering.py:17-31`, `condition_on_obs`, for a matrix of state
probabilities (one distribution per row) and a vector of log-likelihoods. -/
def conditionOnObs (stateProbs : Fin (n + 1) → Fin (n + 1) → Fl) (lls : Fin (n + 1) → Fl) :
    (Fin (n + 1) → Fin (n + 1) → Fl) × (Fin (n + 1) → Fl) :=
  -- 27
  let llMax := Fl.vmax lls
  -- 28
  let aCond := fun i j => stateProbs i j * Fl.exp (lls j - llMax)
  -- 29
  let norm := fun i => ∑ j, aCond i j
  -- 30-31
  (fun i j => aCond i j / norm i, fun i => Fl.log (norm i) + llMax)

/-- `cuthbertlib/discrete/filtering.py:34-49`, `filtering_operator`. -/
def filteringOperator (eij ejk : FilterScanElement n) : FilterScanElement n :=
  let c := conditionOnObs eij.f ejk.logG
  { f := fun i k => ∑ j, c.1 i j * ejk.f j k
    logG := fun i => eij.logG i + c.2 i }

/-- `cuthbert/discrete/filter.py:26-42`, `DiscreteFilterState`. -/
structure FilterState (n : ℕ) (Inp : Type*) where
  elem : FilterScanElement n
  modelInputs : Inp

/-- `cuthbert/discrete/filter.py:32-37`, `dist`: row 0 of `f`. -/
def FilterState.dist (s : FilterState n Inp) : Fin (n + 1) → Fl := s.elem.f 0

/-- `cuthbert/discrete/filter.py:39-42`, `log_normalizing_constant`: entry 0 of `log_g`. -/
def FilterState.logNormalizingConstant (s : FilterState n Inp) : Fl := s.elem.logG 0

/-- `cuthbert/discrete/filter.py:70-90`, `init_prepare`. -/
def initPrepare (getInitDist : Inp → Fin (n + 1) → Fl) (u : Inp) : FilterState n Inp where
  elem := { f := fun _ j => getInitDist u j * Fl.fin 1, logG := fun _ => Fl.fin 0 }
  modelInputs := u

/-- `cuthbert/discrete/filter.py:93-116`, `filter_prepare`. -/
def filterPrepare (getTrans : Inp → Fin (n + 1) → Fin (n + 1) → Fl)
    (getObsLls : Inp → Fin (n + 1) → Fl) (u : Inp) : FilterState n Inp :=
  let c := conditionOnObs (getTrans u) (getObsLls u)
  { elem := { f := c.1, logG := c.2 }, modelInputs := u }

/-- `cuthbert/discrete/filter.py:119-132`, `filter_combine`. -/
def filterCombine (s₁ s₂ : FilterState n Inp) : FilterState n Inp where
  elem := filteringOperator s₁.elem s₂.elem
  modelInputs := s₂.modelInputs

/-- `cuthbert/discrete/filter.py:45-67`, `build_filter`. -/
def buildFilter (getInitDist : Inp → Fin (n + 1) → Fl)
    (getTrans : Inp → Fin (n + 1) → Fin (n + 1) → Fl) (getObsLls : Inp → Fin (n + 1) → Fl) :
    FilterObj Inp K (FilterState n Inp) where
  initPrepare u _ := initPrepare getInitDist u
  filterPrepare u _ := filterPrepare getTrans getObsLls u
  filterCombine := filterCombine
  associative := true

/-- `cuthbertlib/discrete/smoothing.py:8-22`, `get_reverse_kernel`. -/
def getReverseKernel (dist : Fin (n + 1) → Fl) (trans : Fin (n + 1) → Fin (n + 1) → Fl) :
    Fin (n + 1) → Fin (n + 1) → Fl :=
  let pred := fun j => ∑ i, trans i j * dist i
  fun j i => trans i j * dist i / pred j

/-- `cuthbertlib/discrete/smoothing.py:25-35`, `smoothing_operator`: `elem_jk @ elem_ij`. -/
def smoothingOperator (eij ejk : Fin (n + 1) → Fin (n + 1) → Fl) :
    Fin (n + 1) → Fin (n + 1) → Fl :=
  fun a c => ∑ b, ejk a b * eij b c

/-- `cuthbert/discrete/smoother.py:22-34`, `DiscreteSmootherState`. -/
structure SmootherState (n : ℕ) (Inp : Type*) where
  a : Fin (n + 1) → Fin (n + 1) → Fl
  modelInputs : Inp

/-- `cuthbert/discrete/smoother.py:28-34`, `dist`: row 0 of `a`. -/
def SmootherState.dist (s : SmootherState n Inp) : Fin (n + 1) → Fl := s.a 0

/-- `cuthbert/discrete/smoother.py:54-74`, `smoother_prepare`. -/
def smootherPrepare (getTrans : Inp → Fin (n + 1) → Fin (n + 1) → Fl)
    (s : FilterState n Inp) (u : Inp) : SmootherState n Inp where
  a := getReverseKernel s.dist (getTrans u)
  modelInputs := u

/-- `cuthbert/discrete/smoother.py:77-105`, `convert_filter_to_smoother_state`; `dummy` is
`dummy_tree_like`. -/
def convert (dummy : Inp → Inp) (s : FilterState n Inp) (u : Inp) : SmootherState n Inp where
  a := fun _ j => s.dist j
  modelInputs := dummy u

/-- `cuthbert/discrete/smoother.py:108-123`, `smoother_combine`. -/
def smootherCombine (s₁ s₂ : SmootherState n Inp) : SmootherState n Inp where
  a := smoothingOperator s₁.a s₂.a
  modelInputs := s₁.modelInputs

/-- `cuthbert/discrete/smoother.py:37-51`, `build_smoother`. -/
def buildSmoother (dummy : Inp → Inp) (getTrans : Inp → Fin (n + 1) → Fin (n + 1) → Fl) :
    SmootherObj Inp K (FilterState n Inp) (SmootherState n Inp) where
  convert s u _ := convert dummy s u
  smootherPrepare s u _ := smootherPrepare getTrans s u
  smootherCombine := smootherCombine
  associative := true

end

end Cuthbert.Discrete
