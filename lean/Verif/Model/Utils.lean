import Verif.Model.Interface
import Verif.Model.Fl

/-!
# `dummy_tree_like`

Models `cuthbert/utils.py`. A pytree is a tree of labelled nodes over leaves; JAX's registry of
container types is not modelled beyond the label of a node (`None` is a node without children).
-/

namespace Cuthbert
namespace Utils

/-- The IEEE formats whose `finfo` is modelled. 8-bit floats are not modelled. -/
inductive FloatFmt where
  | f16
  | bf16
  | f32
  | f64
  deriving DecidableEq

/-- Digits of the significand, with the hidden one. -/
def FloatFmt.prec : FloatFmt → ℕ
  | .f16 => 11
  | .bf16 => 8
  | .f32 => 24
  | .f64 => 53

/-- Largest exponent. -/
def FloatFmt.emax : FloatFmt → ℤ
  | .f16 => 15
  | .bf16 => 127
  | .f32 => 127
  | .f64 => 1023

/-- Data types of JAX arrays. `int k` is the signed integer type of `k + 1` bits, `uint k` the
unsigned integer type of `k` bits. Anything that is neither integer, floating nor boolean (complex
numbers, typed PRNG keys) is `other`. -/
inductive DType where
  | int (k : ℕ)
  | uint (k : ℕ)
  | float (f : FloatFmt)
  | bool
  | other (name : String)
  deriving DecidableEq

/-- An element of an array. -/
inductive Scalar where
  | int (z : ℤ)
  | real (x : Fl)
  | bool (b : Bool)
  | opaque (n : ℕ)

/-- An array: shape, data type and elements in row-major order. -/
structure Arr where
  shape : List ℕ
  dtype : DType
  data : List Scalar

/-- What may stand at a leaf of the argument: an array, a `jax.ShapeDtypeStruct`, a Python number, or
an object that is not a number (`jnp.asarray` raises `TypeError`). -/
inductive Leaf where
  | array (a : Arr)
  | struct (shape : List ℕ) (dtype : DType)
  | pyInt (z : ℤ)
  | pyFloat (x : Fl)
  | pyBool (b : Bool)
  | pyComplex (re im : Fl)
  | object (name : String)

/-- A pytree. -/
inductive Tree (α : Type) where
  | leaf (a : α)
  | node (label : String) (children : List (Tree α))

mutual
/-- `jax.tree.map(f, tree)` for a function that may raise: leaves are visited from left to right. -/
def Tree.mapM {α β : Type} (f : α → Except Err β) : Tree α → Except Err (Tree β)
  | .leaf a => (f a).map .leaf
  | .node l cs => (Tree.mapMs f cs).map (.node l)
/-- The children of a node. -/
def Tree.mapMs {α β : Type} (f : α → Except Err β) : List (Tree α) → Except Err (List (Tree β))
  | [] => .ok []
  | t :: ts => do
    let t' ← Tree.mapM f t
    let ts' ← Tree.mapMs f ts
    .ok (t' :: ts')
end

/-- The data type that JAX gives to an array (`jax.dtypes.canonicalize_dtype`): without `x64` the
64-bit types become 32-bit types. -/
def canonical (x64 : Bool) (d : DType) : DType :=
  if x64 then d
  else if d = .int 63 then .int 31
  else if d = .uint 64 then .uint 32
  else if d = .float .f64 then .float .f32
  else d

/-- `cuthbert/utils.py:11-16`: shape and data type of `jnp.asarray(leaf)`. The elements do not matter.
A Python integer that does not fit raises `OverflowError`, which is subsumed under `typeError` here. -/
def asarray (x64 : Bool) : Leaf → Except Err (List ℕ × DType)
  | .array a => .ok (a.shape, canonical x64 a.dtype)
  | .struct s d => .ok (s, canonical x64 d)
  | .pyInt z =>
    if -(2 ^ (if x64 then 63 else 31) : ℤ) ≤ z ∧ z < 2 ^ (if x64 then 63 else 31) then
      .ok ([], canonical x64 (.int 63))
    else .error .typeError
  | .pyFloat _ => .ok ([], canonical x64 (.float .f64))
  | .pyBool _ => .ok ([], .bool)
  | .pyComplex _ _ => .ok ([], .other "complex")
  | .object _ => .error .typeError

/-- `jnp.finfo(dtype).min`. -/
noncomputable def finfoMin (f : FloatFmt) : ℝ :=
  -((2 - (2 : ℝ) ^ (1 - (f.prec : ℤ))) * (2 : ℝ) ^ f.emax)

/-- `cuthbert/utils.py:18-25`, the value that fills the array. -/
noncomputable def minVal : DType → Except Err Scalar
  | .int k => .ok (.int (-(2 ^ k)))
  | .uint _ => .ok (.int 0)
  | .float f => .ok (.real (.fin (finfoMin f)))
  | .bool => .ok (.bool false)
  | .other _ => .error .valueError

/-- `cuthbert/utils.py:9-27`, `_dummy_array`. -/
noncomputable def dummyArray (x64 : Bool) (leaf : Leaf) : Except Err Arr := do
  let (shape, dtype) ← asarray x64 leaf
  let v ← minVal dtype
  .ok ⟨shape, dtype, List.replicate shape.prod v⟩

/-- `cuthbert/utils.py:30-32`, `dummy_tree_like`. -/
noncomputable def dummyTreeLike (x64 : Bool) (t : Tree Leaf) : Except Err (Tree Arr) :=
  t.mapM (dummyArray x64)

/-- `dummy_tree_like` of a tree of JAX arrays, as `cuthbert/smoothing.py:81` calls it. -/
noncomputable def dummyArrays (x64 : Bool) (t : Tree Arr) : Except Err (Tree Arr) :=
  t.mapM fun a => dummyArray x64 (.array a)

/-! ## Placeholder states of the linearised filters -/

/-- `x.squeeze()`: drop the axes of length 1. -/
def squeeze (s : List ℕ) : List ℕ := s.filter (· ≠ 1)

/-- Shape of `jnp.cov(x)`, in which rows are variables: the product of `atleast_2d(x)` and its transpose, squeezed;
`ValueError` for more than two dimensions. -/
def covShape : List ℕ → Except Err (List ℕ)
  | [] => .ok (squeeze [1, 1])
  | [_] => .ok (squeeze [1, 1])
  | [n, _] => .ok (squeeze [n, n])
  | _ => .error .valueError

/-- Data type of `jnp.cov(x)`: that of `x`, or the default floating type for integers and booleans. -/
def inexact (x64 : Bool) : DType → DType
  | .float f => .float f
  | .other n => .other n
  | _ => canonical x64 (.float .f64)

/-- The arrays of a `FilterScanElement` (`cuthbertlib/kalman/filtering.py:14-22`). -/
structure ElemArrs where
  A : Arr
  b : Arr
  U : Arr
  eta : Arr
  Z : Arr
  ell : Arr

/-- The placeholder element for an initial mean of the given shape and data type:
`cuthbert/gaussian/moments/associative_filter.py:82-97`, `cuthbert/gaussian/taylor/associative_filter.py:114-129`
(handed to the callbacks) and `cuthbert/gaussian/moments/non_associative_filter.py:70-80`,
`cuthbert/gaussian/taylor/non_associative_filter.py:126-136` (returned by `filter_prepare`). Data types that are not
canonical do not occur in the result of `eval_shape`. -/
noncomputable def placeholder (x64 : Bool) (shape : List ℕ) (dtype : DType) : Except Err ElemArrs := do
  let mean ← dummyArray x64 (.struct shape dtype)
  -- `jnp.cov(dummy_mean[..., None])`
  let s ← covShape (mean.shape ++ [1])
  let cov ← dummyArray x64 (.struct s (inexact x64 mean.dtype))
  .ok ⟨cov, mean, cov, mean, cov, ⟨[], canonical x64 (.float .f64), [.real (.fin 0)]⟩⟩

end Utils
end Cuthbert
