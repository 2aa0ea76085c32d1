import Verif.Spec.Smoothness
import Verif.Spec.Conditioning
import Verif.Spec.Gaussian
import Mathlib.Analysis.Calculus.ContDiff.Operations
import Mathlib.Analysis.SpecialFunctions.Log.Deriv
import Mathlib.LinearAlgebra.Matrix.NonsingularInverse

/-!
# Calculus of smooth families of vectors and matrices
-/

namespace Cuthbert
open Matrix Cuthbert.Spec

variable {E : Type*} [NormedAddCommGroup E] [NormedSpace ℝ E] {n : WithTop ℕ∞} {U : Set E}
variable {ι κ ο : Type*}

namespace Spec.SmoothMat

theorem const (A : Matrix ι κ ℝ) : SmoothMat n U fun _ : E => A := fun _ _ => contDiffOn_const

theorem transpose {A : E → Matrix ι κ ℝ} (hA : SmoothMat n U A) : SmoothMat n U fun θ => (A θ)ᵀ := fun i j => hA j i

theorem add {A B : E → Matrix ι κ ℝ} (hA : SmoothMat n U A) (hB : SmoothMat n U B) : SmoothMat n U fun θ => A θ + B θ :=
  fun i j => (hA i j).add (hB i j)

theorem sub {A B : E → Matrix ι κ ℝ} (hA : SmoothMat n U A) (hB : SmoothMat n U B) : SmoothMat n U fun θ => A θ - B θ :=
  fun i j => (hA i j).sub (hB i j)

theorem mul [Fintype κ] {A : E → Matrix ι κ ℝ} {B : E → Matrix κ ο ℝ} (hA : SmoothMat n U A) (hB : SmoothMat n U B) :
    SmoothMat n U fun θ => A θ * B θ := fun i j => by
  simp only [Matrix.mul_apply]
  exact ContDiffOn.sum fun k _ => (hA i k).mul (hB k j)

theorem mulVec [Fintype κ] {A : E → Matrix ι κ ℝ} {v : E → κ → ℝ} (hA : SmoothMat n U A) (hv : SmoothVec n U v) :
    SmoothVec n U fun θ => A θ *ᵥ v θ := fun i => by
  simp only [Matrix.mulVec, dotProduct]
  exact ContDiffOn.sum fun k _ => (hA i k).mul (hv k)

theorem det [Fintype ι] [DecidableEq ι] {A : E → Matrix ι ι ℝ} (hA : SmoothMat n U A) :
    ContDiffOn ℝ n (fun θ => (A θ).det) U := by
  simp only [Matrix.det_apply']
  exact ContDiffOn.sum fun σ _ => contDiffOn_const.mul (contDiffOn_prod fun i _ => hA (σ i) i)

theorem inv [Fintype ι] [DecidableEq ι] {A : E → Matrix ι ι ℝ} (hA : SmoothMat n U A) (h : ∀ θ ∈ U, (A θ).det ≠ 0) :
    SmoothMat n U fun θ => (A θ)⁻¹ := fun i j => by
  have e : ∀ θ, (A θ)⁻¹ i j = (A θ).det⁻¹ * ((A θ).updateRow j (Pi.single i 1)).det := fun θ => by
    rw [Matrix.inv_def, Matrix.smul_apply, Matrix.adjugate_apply, Ring.inverse_eq_inv', smul_eq_mul]
  simp only [e]
  refine ContDiffOn.mul (hA.det.inv h) (det fun a b => ?_)
  by_cases hab : a = j
  · subst hab
    simp only [Matrix.updateRow_self]
    exact contDiffOn_const
  · simp only [Matrix.updateRow_ne hab]
    exact hA a b

end Spec.SmoothMat

namespace Spec.SmoothVec

theorem const (v : ι → ℝ) : SmoothVec n U fun _ : E => v := fun _ => contDiffOn_const

theorem add {v w : E → ι → ℝ} (hv : SmoothVec n U v) (hw : SmoothVec n U w) : SmoothVec n U fun θ => v θ + w θ :=
  fun i => (hv i).add (hw i)

theorem sub {v w : E → ι → ℝ} (hv : SmoothVec n U v) (hw : SmoothVec n U w) : SmoothVec n U fun θ => v θ - w θ :=
  fun i => (hv i).sub (hw i)

theorem dot [Fintype ι] {v w : E → ι → ℝ} (hv : SmoothVec n U v) (hw : SmoothVec n U w) :
    ContDiffOn ℝ n (fun θ => v θ ⬝ᵥ w θ) U := by
  simp only [dotProduct]
  exact ContDiffOn.sum fun k _ => (hv k).mul (hw k)

end Spec.SmoothVec

variable [Fintype ι] [DecidableEq ι] [Fintype ο] [DecidableEq ο]

theorem smooth_gaussLogDensity {m y : E → ι → ℝ} {S : E → Matrix ι ι ℝ} (hm : SmoothVec n U m) (hS : SmoothMat n U S)
    (hy : SmoothVec n U y) (h : ∀ θ ∈ U, (S θ).det ≠ 0) : ContDiffOn ℝ n (fun θ => gaussLogDensity (m θ) (S θ) (y θ)) U := by
  unfold gaussLogDensity
  have hr := hy.sub hm
  exact ((contDiffOn_const.mul (hr.dot ((hS.inv h).mulVec hr))).sub contDiffOn_const).sub
    (contDiffOn_const.mul (hS.det.log h))

omit [DecidableEq ι] [Fintype ο] [DecidableEq ο] in
theorem smooth_innovCov {P : E → Matrix ι ι ℝ} {H : E → Matrix ο ι ℝ} {R : E → Matrix ο ο ℝ} (hP : SmoothMat n U P)
    (hH : SmoothMat n U H) (hR : SmoothMat n U R) : SmoothMat n U fun θ => innovCov (P θ) (H θ) (R θ) :=
  ((hH.mul hP).mul hH.transpose).add hR

omit [DecidableEq ι] in
theorem smooth_condMean {m : E → ι → ℝ} {P : E → Matrix ι ι ℝ} {H : E → Matrix ο ι ℝ} {d : E → ο → ℝ}
    {R : E → Matrix ο ο ℝ} {y : E → ο → ℝ} (hm : SmoothVec n U m) (hP : SmoothMat n U P) (hH : SmoothMat n U H)
    (hd : SmoothVec n U d) (hR : SmoothMat n U R) (hy : SmoothVec n U y)
    (h : ∀ θ ∈ U, (innovCov (P θ) (H θ) (R θ)).det ≠ 0) :
    SmoothVec n U fun θ => condMean (m θ) (P θ) (H θ) (d θ) (R θ) (y θ) :=
  hm.add (hP.mulVec (hH.transpose.mulVec (((smooth_innovCov hP hH hR).inv h).mulVec (hy.sub ((hH.mulVec hm).add hd)))))

omit [DecidableEq ι] in
theorem smooth_condCov {P : E → Matrix ι ι ℝ} {H : E → Matrix ο ι ℝ} {R : E → Matrix ο ο ℝ} (hP : SmoothMat n U P)
    (hH : SmoothMat n U H) (hR : SmoothMat n U R) (h : ∀ θ ∈ U, (innovCov (P θ) (H θ) (R θ)).det ≠ 0) :
    SmoothMat n U fun θ => condCov (P θ) (H θ) (R θ) :=
  hP.sub ((hP.mul ((hH.transpose.mul ((smooth_innovCov hP hH hR).inv h)).mul hH)).mul hP)

end Cuthbert
