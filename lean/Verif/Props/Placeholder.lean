import Verif.Model.Utils

/-!
# Placeholder states have the shapes of states, except in one dimension (C93)
-/

namespace Cuthbert.Utils

/-- The shapes of a filter state of dimension `n`, all of data type `d`. -/
def HasStateShapes (n : ℕ) (d : DType) (e : ElemArrs) : Prop :=
  (∀ a ∈ [e.b, e.eta], a.shape = [n] ∧ a.dtype = d ∧ a.data.length = n) ∧
  (∀ a ∈ [e.A, e.U, e.Z], a.shape = [n, n] ∧ a.dtype = d ∧ a.data.length = n * n) ∧ e.ell.shape = []

theorem placeholder_eq (x64 : Bool) (n : ℕ) (f : FloatFmt) (hf : canonical x64 (.float f) = .float f) :
    placeholder x64 [n] (.float f) = .ok
      { A := ⟨squeeze [n, n], .float f, List.replicate (squeeze [n, n]).prod (.real (.fin (finfoMin f)))⟩
        b := ⟨[n], .float f, List.replicate n (.real (.fin (finfoMin f)))⟩
        U := ⟨squeeze [n, n], .float f, List.replicate (squeeze [n, n]).prod (.real (.fin (finfoMin f)))⟩
        eta := ⟨[n], .float f, List.replicate n (.real (.fin (finfoMin f)))⟩
        Z := ⟨squeeze [n, n], .float f, List.replicate (squeeze [n, n]).prod (.real (.fin (finfoMin f)))⟩
        ell := ⟨[], canonical x64 (.float .f64), [.real (.fin 0)]⟩ } := by
  have h1 : ∀ s, dummyArray x64 (.struct s (.float f)) =
      .ok ⟨s, .float f, List.replicate s.prod (.real (.fin (finfoMin f)))⟩ := by
    intro s
    simp [dummyArray, asarray, hf, minVal, bind, Except.bind]
  simp only [placeholder, h1, bind, Except.bind, List.cons_append, List.nil_append, covShape, inexact, List.prod_cons,
    List.prod_nil, mul_one]

/-- **C93** (except dimension one). The placeholder state that the linearised filters hand to the callbacks and that
`filter_prepare` returns has the shapes and data types of a filter state if the dimension is not 1. What is missing is
dimension 1, where it is false (`placeholder_scalar_cov`). -/
theorem placeholder_shapes_partial (x64 : Bool) (n : ℕ) (hn : n ≠ 1) (f : FloatFmt)
    (hf : canonical x64 (.float f) = .float f) :
    ∃ e, placeholder x64 [n] (.float f) = .ok e ∧ HasStateShapes n (.float f) e := by
  refine ⟨_, placeholder_eq x64 n f hf, ?_, ?_, rfl⟩
  · simp
  · have h : squeeze [n, n] = [n, n] := by simp [squeeze, hn]
    simp [h]

/-- **C93** (the full claim is false). For a one-dimensional state the placeholder covariance is a scalar, not a
`1 × 1` matrix. -/
theorem placeholder_scalar_cov (x64 : Bool) (f : FloatFmt) (hf : canonical x64 (.float f) = .float f) :
    ∃ e, placeholder x64 [1] (.float f) = .ok e ∧ e.b.shape = [1] ∧ e.U.shape = [] ∧ e.A.shape = [] ∧
      e.Z.shape = [] ∧ ¬HasStateShapes 1 (.float f) e := by
  refine ⟨_, placeholder_eq x64 1 f hf, rfl, rfl, rfl, rfl, fun h => ?_⟩
  have := (h.2.1 _ (List.mem_cons_self)).1
  simp [squeeze] at this

/-- Non-vacuity for C93: single precision without `x64`, double precision with it. -/
example : canonical false (.float .f32) = .float .f32 ∧ canonical true (.float .f64) = .float .f64 := by
  simp [canonical]

/-- **C93** (integer means). An initial mean of integers, such as `jnp.zeros(n, int)`, makes a placeholder whose mean
has integers but whose covariance factors have the default floating type. -/
theorem placeholder_integer_mean (x64 : Bool) (n k : ℕ) (hn : n ≠ 1) (hk : canonical x64 (.int k) = .int k) :
    ∃ e, placeholder x64 [n] (.int k) = .ok e ∧
      (∀ a ∈ [e.b, e.eta], a.shape = [n] ∧ a.dtype = .int k) ∧
      ∀ a ∈ [e.A, e.U, e.Z], a.shape = [n, n] ∧ a.dtype = .float (if x64 then .f64 else .f32) := by
  have h : squeeze [n, n] = [n, n] := by simp [squeeze, hn]
  have hd : canonical x64 (.float .f64) = .float (if x64 then .f64 else .f32) := by
    cases x64 <;> simp [canonical]
  have hd' : canonical x64 (.float (if x64 then .f64 else .f32)) = .float (if x64 then .f64 else .f32) := by
    cases x64 <;> simp [canonical]
  refine ⟨_, by
    simp only [placeholder, dummyArray, asarray, hk, minVal, bind, Except.bind, List.cons_append, List.nil_append,
      covShape, inexact, hd, hd', h]
    rfl, by simp, by simp⟩

example : canonical false (.int 31) = .int 31 := by simp [canonical]

/-- An initial mean with a batch axis is rejected. -/
theorem placeholder_batched (x64 : Bool) (a b : ℕ) (s : List ℕ) (f : FloatFmt)
    (hf : canonical x64 (.float f) = .float f) :
    placeholder x64 (a :: b :: s) (.float f) = .error .valueError := by
  have h1 : dummyArray x64 (.struct (a :: b :: s) (.float f)) =
      .ok ⟨a :: b :: s, .float f, List.replicate (a :: b :: s).prod (.real (.fin (finfoMin f)))⟩ := by
    simp [dummyArray, asarray, hf, minVal, bind, Except.bind]
  simp only [placeholder, h1, bind, Except.bind, List.cons_append]
  cases s <;> rfl

/-- A scalar initial mean makes a placeholder of scalars. -/
theorem placeholder_scalar_mean (x64 : Bool) (f : FloatFmt) (hf : canonical x64 (.float f) = .float f) :
    ∃ e, placeholder x64 [] (.float f) = .ok e ∧
      ∀ a ∈ [e.A, e.b, e.U, e.eta, e.Z], a.shape = [] ∧ a.dtype = .float f ∧ a.data.length = 1 := by
  have h1 : dummyArray x64 (.struct [] (.float f)) = .ok ⟨[], .float f, [.real (.fin (finfoMin f))]⟩ := by
    simp [dummyArray, asarray, hf, minVal, bind, Except.bind]
  have h2 : squeeze [1, 1] = [] := by simp [squeeze]
  refine ⟨_, by
    simp only [placeholder, h1, bind, Except.bind, List.nil_append, covShape, inexact, h2]
    rfl, by simp⟩

end Cuthbert.Utils
