import Mathlib.Analysis.Calculus.ContDiff.Defs
import Mathlib.Data.Matrix.Basic
import Mathlib.Data.Real.Basic

/-!
# Specification: arrays that depend smoothly on parameters

`n` is the number of continuous derivatives; `n = ω` stands for analytic functions.
-/

namespace Cuthbert.Spec

variable {E : Type*} [NormedAddCommGroup E] [NormedSpace ℝ E] (n : WithTop ℕ∞) (U : Set E)

/-- All components of a vector of functions are smooth on `U`. -/
def SmoothVec {ι : Type*} (v : E → ι → ℝ) : Prop := ∀ i, ContDiffOn ℝ n (fun θ => v θ i) U

/-- All entries of a matrix of functions are smooth on `U`. -/
def SmoothMat {ι κ : Type*} (A : E → Matrix ι κ ℝ) : Prop := ∀ i j, ContDiffOn ℝ n (fun θ => A θ i j) U

end Cuthbert.Spec
