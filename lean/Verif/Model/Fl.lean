import Mathlib.Analysis.SpecialFunctions.Log.Basic
import Mathlib.Algebra.BigOperators.Fin

/-!
# Floating-point scalars without rounding

`Fl` is the value set of IEEE 754 arithmetic with exact reals in place of rounded ones:
`nan`, the two infinities and the finite numbers. Special values follow IEEE 754 / `jax.numpy`.
Simplifications: no rounding, no overflow and no negative zero (`r / 0` is `±∞` with the sign
of `r`, and `nan` for `r = 0`).
-/

namespace Cuthbert

/-- Floating-point scalars without rounding. -/
inductive Fl where
  | nan
  | ninf
  | pinf
  | fin (r : ℝ)

namespace Fl

noncomputable section

/-- Addition. -/
protected def add : Fl → Fl → Fl
  | fin a, fin b => fin (a + b)
  | nan, _ => nan
  | _, nan => nan
  | pinf, ninf => nan
  | ninf, pinf => nan
  | pinf, _ => pinf
  | _, pinf => pinf
  | ninf, _ => ninf
  | _, ninf => ninf

/-- Negation. -/
protected def neg : Fl → Fl
  | nan => nan
  | ninf => pinf
  | pinf => ninf
  | fin a => fin (-a)

/-- An infinity with the sign of `a`; `nan` for zero. -/
def infOfSign (a : ℝ) : Fl := if 0 < a then pinf else if a < 0 then ninf else nan

/-- Multiplication. -/
protected def mul : Fl → Fl → Fl
  | fin a, fin b => fin (a * b)
  | nan, _ => nan
  | _, nan => nan
  | pinf, fin b => infOfSign b
  | fin a, pinf => infOfSign a
  | ninf, fin b => infOfSign (-b)
  | fin a, ninf => infOfSign (-a)
  | pinf, pinf => pinf
  | ninf, ninf => pinf
  | pinf, ninf => ninf
  | ninf, pinf => ninf

/-- Division. -/
protected def div : Fl → Fl → Fl
  | nan, _ => nan
  | _, nan => nan
  | fin a, fin b => if b = 0 then infOfSign a else fin (a / b)
  | fin _, _ => fin 0
  | pinf, fin b => if b = 0 then pinf else infOfSign b
  | ninf, fin b => if b = 0 then ninf else infOfSign (-b)
  | _, _ => nan

instance : Zero Fl := ⟨fin 0⟩
instance : Add Fl := ⟨Fl.add⟩
instance : Neg Fl := ⟨Fl.neg⟩
instance : Sub Fl := ⟨fun a b => a + -b⟩
instance : Mul Fl := ⟨Fl.mul⟩
instance : Div Fl := ⟨Fl.div⟩

/-- `jnp.exp`. -/
def exp : Fl → Fl
  | nan => nan
  | ninf => fin 0
  | pinf => pinf
  | fin a => fin (Real.exp a)

/-- `jnp.log`. -/
def log : Fl → Fl
  | nan => nan
  | ninf => nan
  | pinf => pinf
  | fin a => if 0 < a then fin (Real.log a) else if a = 0 then ninf else nan

/-- `jnp.maximum`: propagates `nan`. -/
protected def max : Fl → Fl → Fl
  | nan, _ => nan
  | _, nan => nan
  | pinf, _ => pinf
  | _, pinf => pinf
  | ninf, b => b
  | a, ninf => a
  | fin a, fin b => fin (Max.max a b)

/-- `a < b`: false as soon as an argument is `nan`. -/
protected def lt : Fl → Fl → Prop
  | nan, _ => False
  | _, nan => False
  | _, ninf => False
  | pinf, _ => False
  | ninf, _ => True
  | fin _, pinf => True
  | fin a, fin b => a < b

/-- `a <= b`: false as soon as an argument is `nan`. -/
protected def le : Fl → Fl → Prop
  | nan, _ => False
  | _, nan => False
  | ninf, _ => True
  | _, pinf => True
  | pinf, _ => False
  | fin _, ninf => False
  | fin a, fin b => a ≤ b

instance : LT Fl := ⟨Fl.lt⟩
instance : LE Fl := ⟨Fl.le⟩

theorem zero_def : (0 : Fl) = fin 0 := rfl
theorem add_def (a b : Fl) : a + b = Fl.add a b := rfl
theorem neg_def (a : Fl) : -a = Fl.neg a := rfl
theorem sub_def (a b : Fl) : a - b = a + -b := rfl
theorem mul_def (a b : Fl) : a * b = Fl.mul a b := rfl
theorem div_def (a b : Fl) : a / b = Fl.div a b := rfl

@[simp] theorem fin_add (a b : ℝ) : fin a + fin b = fin (a + b) := rfl
@[simp] theorem neg_fin (a : ℝ) : -fin a = fin (-a) := rfl
@[simp] theorem fin_sub (a b : ℝ) : fin a - fin b = fin (a - b) := by
  rw [sub_def, neg_fin, fin_add, sub_eq_add_neg]
@[simp] theorem fin_mul (a b : ℝ) : fin a * fin b = fin (a * b) := rfl
theorem fin_div (a b : ℝ) (h : b ≠ 0) : fin a / fin b = fin (a / b) := by
  rw [div_def, Fl.div, if_neg h]
@[simp] theorem exp_fin (a : ℝ) : exp (fin a) = fin (Real.exp a) := rfl
@[simp] theorem exp_ninf : exp ninf = fin 0 := rfl
theorem log_fin (a : ℝ) (h : 0 < a) : log (fin a) = fin (Real.log a) := by
  rw [log, if_pos h]
theorem log_zero : log (fin 0) = ninf := by simp [log]
@[simp] theorem ninf_sub_fin (a : ℝ) : ninf - fin a = ninf := rfl
@[simp] theorem nan_add (a : Fl) : nan + a = nan := by cases a <;> rfl
@[simp] theorem add_nan (a : Fl) : a + nan = nan := by cases a <;> rfl
@[simp] theorem nan_mul (a : Fl) : nan * a = nan := by cases a <;> rfl
@[simp] theorem mul_nan (a : Fl) : a * nan = nan := by cases a <;> rfl
@[simp] theorem nan_div (a : Fl) : nan / a = nan := by cases a <;> rfl
@[simp] theorem div_nan (a : Fl) : a / nan = nan := by cases a <;> rfl
@[simp] theorem neg_nan : -nan = nan := rfl
@[simp] theorem nan_sub (a : Fl) : nan - a = nan := by rw [sub_def, nan_add]
@[simp] theorem sub_nan (a : Fl) : a - nan = nan := by rw [sub_def, neg_nan, add_nan]
@[simp] theorem exp_nan : exp nan = nan := rfl
@[simp] theorem log_nan : log nan = nan := rfl

/-- Exact addition is commutative and associative, special values included, so sums do not
depend on the order of summation. -/
instance : AddCommMonoid Fl where
  zero_add a := by cases a <;> simp [zero_def, add_def, Fl.add]
  add_zero a := by cases a <;> simp [zero_def, add_def, Fl.add]
  add_assoc a b c := by
    cases a <;> cases b <;> cases c <;> simp [add_def, Fl.add, add_assoc]
  add_comm a b := by cases a <;> cases b <;> simp [add_def, Fl.add, add_comm]
  nsmul := nsmulRec

instance : Std.Commutative Fl.max where
  comm a b := by cases a <;> cases b <;> simp [Fl.max, max_comm]

instance : Std.Associative Fl.max where
  assoc a b c := by cases a <;> cases b <;> cases c <;> simp [Fl.max, max_assoc]

/-- `v.max()` over a non-empty axis (`ninf` is neutral). -/
def vmax {n : ℕ} (v : Fin n → Fl) : Fl := Finset.univ.fold Fl.max ninf v

theorem sum_fin {ι : Type*} (s : Finset ι) (v : ι → ℝ) :
    ∑ i ∈ s, fin (v i) = fin (∑ i ∈ s, v i) := by
  classical
  induction s using Finset.induction_on with
  | empty => rfl
  | insert a s ha ih => rw [Finset.sum_insert ha, Finset.sum_insert ha, ih, fin_add]

theorem sum_nan {ι : Type*} (s : Finset ι) (v : ι → Fl) (i : ι) (hi : i ∈ s)
    (h : v i = nan) : ∑ i ∈ s, v i = nan := by
  classical
  rw [← Finset.add_sum_erase s v hi, h, nan_add]

/-- The number is finite. -/
def IsFin : Fl → Prop
  | fin _ => True
  | _ => False

/-- A log-likelihood value: finite or `-∞`. -/
def IsLog : Fl → Prop
  | fin _ => True
  | ninf => True
  | _ => False

/-- The likelihood of a log-likelihood value; `0` for `-∞` (junk for `nan`, `+∞`). -/
def lik : Fl → ℝ
  | fin a => Real.exp a
  | _ => 0

theorem lik_nonneg (a : Fl) : 0 ≤ lik a := by
  cases a <;> simp [lik, Real.exp_nonneg]

end

end Fl

end Cuthbert
