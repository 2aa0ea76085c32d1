import Verif.Model.Utils
import Mathlib.Order.Bounds.Defs

/-!
# Vocabulary for pytrees

Leaves and skeleton of a tree, and what the least value of a data type is, by order and not by formula.
-/

namespace Cuthbert
namespace Utils

mutual
/-- The leaves from left to right. -/
def Tree.leaves {α : Type} : Tree α → List α
  | .leaf a => [a]
  | .node _ cs => Tree.leavesL cs
def Tree.leavesL {α : Type} : List (Tree α) → List α
  | [] => []
  | t :: ts => Tree.leaves t ++ Tree.leavesL ts
end

mutual
/-- The structure of a tree: what is left when the leaves are forgotten (`jax.tree.structure`). -/
def Tree.skeleton {α : Type} : Tree α → Tree Unit
  | .leaf _ => .leaf ()
  | .node l cs => .node l (Tree.skeletonL cs)
def Tree.skeletonL {α : Type} : List (Tree α) → List (Tree Unit)
  | [] => []
  | t :: ts => Tree.skeleton t :: Tree.skeletonL ts
end

/-- The finite numbers of a floating format: `m · 2 ^ e` with at most `prec` digits and an exponent in
range (the lower end of the exponent range is that of the subnormal numbers). -/
def FloatFmt.finite (f : FloatFmt) : Set ℝ :=
  {r | ∃ m e : ℤ, |m| < 2 ^ f.prec ∧ 2 - f.emax - f.prec ≤ e ∧ e ≤ f.emax - f.prec + 1 ∧
    r = m * (2 : ℝ) ^ e}

/-- `v` is the least value of the data type (least finite value for floats). -/
def IsLeastOf : DType → Scalar → Prop
  | .int k, .int z => IsLeast {z : ℤ | -(2 ^ k) ≤ z ∧ z < 2 ^ k} z
  | .uint k, .int z => IsLeast {z : ℤ | 0 ≤ z ∧ z < 2 ^ k} z
  | .float f, .real (.fin r) => IsLeast f.finite r
  | .bool, .bool b => IsLeast (Set.univ : Set Bool) b
  | _, _ => False

/-- The data type in which JAX holds values of a data type: with the flag `jax_enable_x64` the same one,
without it the 64-bit types are held in the 32-bit type of the same kind. -/
inductive HeldAs : Bool → DType → DType → Prop
  | same (d : DType) : HeldAs true d d
  | int : HeldAs false (.int 63) (.int 31)
  | uint : HeldAs false (.uint 64) (.uint 32)
  | float : HeldAs false (.float .f64) (.float .f32)
  | narrow (d : DType) (hi : d ≠ .int 63) (hu : d ≠ .uint 64) (hf : d ≠ .float .f64) : HeldAs false d d

/-- Shape and data type that JAX assigns to a leaf. Numbers have the empty shape; an integer has a type
only if it fits. -/
inductive Leaf.HasType : Bool → Leaf → List ℕ → DType → Prop
  | array {x64 : Bool} (a : Arr) {d : DType} (h : HeldAs x64 a.dtype d) : HasType x64 (.array a) a.shape d
  | struct {x64 : Bool} (s : List ℕ) (d₀ : DType) {d : DType} (h : HeldAs x64 d₀ d) :
      HasType x64 (.struct s d₀) s d
  | pyInt32 (z : ℤ) (h : -2 ^ 31 ≤ z ∧ z < 2 ^ 31) : HasType false (.pyInt z) [] (.int 31)
  | pyInt64 (z : ℤ) (h : -2 ^ 63 ≤ z ∧ z < 2 ^ 63) : HasType true (.pyInt z) [] (.int 63)
  | pyFloat32 (x : Fl) : HasType false (.pyFloat x) [] (.float .f32)
  | pyFloat64 (x : Fl) : HasType true (.pyFloat x) [] (.float .f64)
  | pyBool {x64 : Bool} (b : Bool) : HasType x64 (.pyBool b) [] .bool
  | pyComplex {x64 : Bool} (re im : Fl) : HasType x64 (.pyComplex re im) [] (.other "complex")

/-- Integers, floats and booleans. -/
def DType.Supported : DType → Prop
  | .int _ => True
  | .uint _ => True
  | .float _ => True
  | .bool => True
  | .other _ => False

end Utils
end Cuthbert
