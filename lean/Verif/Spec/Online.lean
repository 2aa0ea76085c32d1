import Mathlib.Tactic.TypeStar
import Mathlib.Tactic.Common

/-!
# Specification of the online recursions

The recursions a user runs by hand, one time step at a time. Nothing here refers to
scans or to the offline functions.
-/

namespace Cuthbert.Spec

/-- Running products `a, a*x₁, (a*x₁)*x₂, ...` with left-nested brackets. -/
def runningFold {α : Type*} (op : α → α → α) : α → List α → List α
  | a, [] => [a]
  | a, x :: xs => a :: runningFold op (op a x) xs

/-- `states` is what the online filter recursion produces: one state per input, the first is
`init` of the first input, and each further one combines its predecessor with the
preparation of the current input. `keys t` is the key used at time `t`. -/
structure IsOnlineFilterRun {Inp K S : Type*} (init prepare : Inp → K → S) (combine : S → S → S)
    (inputs : List Inp) (keys : Nat → K) (states : List S) : Prop where
  length_eq : states.length = inputs.length
  first : ∀ inp, inputs[0]? = some inp → states[0]? = some (init inp (keys 0))
  step : ∀ t inp s, inputs[t + 1]? = some inp → states[t]? = some s →
    states[t + 1]? = some (combine s (prepare inp (keys (t + 1))))

/-- `states` is what the backward recursion produces for filter states `x_0, ..., x_T` and
transition inputs `u_0, ..., u_{T-1}` (`u_t` belongs to the transition from `t` to `t+1`): the
last one converts `x_T`, and the one at `t` combines the preparation of `x_t` and `u_t` with the
smoother state at `t+1`. `keys t` is the key used for time `t`. -/
structure IsBackwardSmootherRun {Inp K S Q : Type*} (convertLast : S → K → Q)
    (prepare : S → Inp → K → Q) (combine : Q → Q → Q) (filterStates : List S)
    (inputs : List Inp) (finalKey : K) (keys : Nat → K) (states : List Q) : Prop where
  length_eq : states.length = filterStates.length
  last : ∀ x, filterStates.getLast? = some x → states.getLast? = some (convertLast x finalKey)
  step : ∀ t x u s, filterStates[t]? = some x → inputs[t]? = some u → states[t + 1]? = some s →
    states[t]? = some (combine (prepare x u (keys t)) s)

end Cuthbert.Spec
