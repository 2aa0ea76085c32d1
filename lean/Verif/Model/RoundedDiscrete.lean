import Verif.Model.Discrete

/-!
# The discrete filter and smoother with rounded arithmetic

The model in `Model/Discrete.lean` calculates exactly. Here every operation is the corresponding operation of an
arithmetic `A`. Taking the maximum is exact, as it is in floating point. A matrix product is a sum of products; an
implementation that fuses multiplication and addition makes smaller errors.
-/

namespace Cuthbert.Discrete
open Cuthbert

variable {n : ℕ} {Inp K : Type*}

/-- The operations that filter and smoother perform on scalars. -/
structure Arith where
  add : Fl → Fl → Fl
  sub : Fl → Fl → Fl
  mul : Fl → Fl → Fl
  div : Fl → Fl → Fl
  exp : Fl → Fl
  log : Fl → Fl
  sum : {N : ℕ} → (Fin N → Fl) → Fl

noncomputable section

/-- Exact arithmetic. -/
def Arith.exact : Arith where
  add a b := a + b
  sub a b := a - b
  mul a b := a * b
  div a b := a / b
  exp := Fl.exp
  log := Fl.log
  sum v := ∑ i, v i

/-- The result of a rounding `fl`; special values stay. -/
def roundFl (fl : ℝ → ℝ) : Fl → Fl
  | .fin x => .fin (fl x)
  | x => x

/-- `jnp.exp` with an underflow to zero below `-B` (about 745 in double precision). -/
def expUnderflow (B : ℝ) : Fl → Fl
  | .fin x => if x < -B then .fin 0 else .fin (Real.exp x)
  | x => Fl.exp x

/-- Floating-point arithmetic: the result of every operation is rounded, sums are accumulated one by one, and the
exponential function underflows. Not modelled: overflow, and underflow of products and quotients. -/
def Arith.float (fl : ℝ → ℝ) (B : ℝ) : Arith where
  add a b := roundFl fl (a + b)
  sub a b := roundFl fl (a - b)
  mul a b := roundFl fl (a * b)
  div a b := roundFl fl (a / b)
  exp x := roundFl fl (expUnderflow B x)
  log x := roundFl fl (Fl.log x)
  sum {N} v := Fin.foldl N (fun s i => roundFl fl (s + v i)) (Fl.fin 0)

/-- `cuthbertlib/discrete/filtering.py:17-31`, `condition_on_obs`. -/
def conditionOnObsWith (A : Arith) (stateProbs : Fin (n + 1) → Fin (n + 1) → Fl) (lls : Fin (n + 1) → Fl) :
    (Fin (n + 1) → Fin (n + 1) → Fl) × (Fin (n + 1) → Fl) :=
  -- 27
  let llMax := Fl.vmax lls
  -- 28
  let aCond := fun i j => A.mul (stateProbs i j) (A.exp (A.sub (lls j) llMax))
  -- 29
  let norm := fun i => A.sum fun j => aCond i j
  -- 30-31
  (fun i j => A.div (aCond i j) (norm i), fun i => A.add (A.log (norm i)) llMax)

/-- `cuthbertlib/discrete/filtering.py:34-49`, `filtering_operator`. -/
def filteringOperatorWith (A : Arith) (eij ejk : FilterScanElement n) : FilterScanElement n :=
  let c := conditionOnObsWith A eij.f ejk.logG
  { f := fun i k => A.sum fun j => A.mul (c.1 i j) (ejk.f j k)
    logG := fun i => A.add (eij.logG i) (c.2 i) }

/-- `cuthbert/discrete/filter.py:70-90`, `init_prepare`. -/
def initPrepareWith (A : Arith) (getInitDist : Inp → Fin (n + 1) → Fl) (u : Inp) : FilterState n Inp where
  elem := { f := fun _ j => A.mul (getInitDist u j) (Fl.fin 1), logG := fun _ => Fl.fin 0 }
  modelInputs := u

/-- `cuthbert/discrete/filter.py:93-116`, `filter_prepare`. -/
def filterPrepareWith (A : Arith) (getTrans : Inp → Fin (n + 1) → Fin (n + 1) → Fl)
    (getObsLls : Inp → Fin (n + 1) → Fl) (u : Inp) : FilterState n Inp :=
  let c := conditionOnObsWith A (getTrans u) (getObsLls u)
  { elem := { f := c.1, logG := c.2 }, modelInputs := u }

/-- `cuthbert/discrete/filter.py:119-132`, `filter_combine`. -/
def filterCombineWith (A : Arith) (s₁ s₂ : FilterState n Inp) : FilterState n Inp where
  elem := filteringOperatorWith A s₁.elem s₂.elem
  modelInputs := s₂.modelInputs

/-- `cuthbert/discrete/filter.py:45-67`, `build_filter`. -/
def buildFilterWith (A : Arith) (getInitDist : Inp → Fin (n + 1) → Fl)
    (getTrans : Inp → Fin (n + 1) → Fin (n + 1) → Fl) (getObsLls : Inp → Fin (n + 1) → Fl) :
    FilterObj Inp K (FilterState n Inp) where
  initPrepare u _ := initPrepareWith A getInitDist u
  filterPrepare u _ := filterPrepareWith A getTrans getObsLls u
  filterCombine := filterCombineWith A
  associative := true

/-- `cuthbertlib/discrete/smoothing.py:8-22`, `get_reverse_kernel`. The products are formed twice, once in the dot product
and once for the result, with the same values. -/
def getReverseKernelWith (A : Arith) (dist : Fin (n + 1) → Fl) (trans : Fin (n + 1) → Fin (n + 1) → Fl) :
    Fin (n + 1) → Fin (n + 1) → Fl :=
  let pred := fun j => A.sum fun i => A.mul (trans i j) (dist i)
  fun j i => A.div (A.mul (trans i j) (dist i)) (pred j)

/-- `cuthbertlib/discrete/smoothing.py:25-35`, `smoothing_operator`: `elem_jk @ elem_ij`. -/
def smoothingOperatorWith (A : Arith) (eij ejk : Fin (n + 1) → Fin (n + 1) → Fl) : Fin (n + 1) → Fin (n + 1) → Fl :=
  fun a c => A.sum fun b => A.mul (ejk a b) (eij b c)

/-- `cuthbert/discrete/smoother.py:54-74`, `smoother_prepare`. -/
def smootherPrepareWith (A : Arith) (getTrans : Inp → Fin (n + 1) → Fin (n + 1) → Fl) (s : FilterState n Inp) (u : Inp) :
    SmootherState n Inp where
  a := getReverseKernelWith A s.dist (getTrans u)
  modelInputs := u

/-- `cuthbert/discrete/smoother.py:108-123`, `smoother_combine`. -/
def smootherCombineWith (A : Arith) (s₁ s₂ : SmootherState n Inp) : SmootherState n Inp where
  a := smoothingOperatorWith A s₁.a s₂.a
  modelInputs := s₁.modelInputs

/-- `cuthbert/discrete/smoother.py:37-51`, `build_smoother`. The conversion of the final state does not calculate. -/
def buildSmootherWith (A : Arith) (dummy : Inp → Inp) (getTrans : Inp → Fin (n + 1) → Fin (n + 1) → Fl) :
    SmootherObj Inp K (FilterState n Inp) (SmootherState n Inp) where
  convert s u _ := convert dummy s u
  smootherPrepare s u _ := smootherPrepareWith A getTrans s u
  smootherCombine := smootherCombineWith A
  associative := true

end

end Cuthbert.Discrete
