import Mathlib.Data.List.Basic
import Mathlib.Data.Nat.Log
import Mathlib.Tactic.Common

/-!
# Specification: the steps that a parallel scan visits

If combining a state with a later one reads nothing of the later state but its time step, a parallel
scan arrives at time `t` from time 0 through the times `visited t` only.
-/

namespace Cuthbert

/-- `visited (2i + 1)` is `1` followed by `2j + 1` for the `j` of `visited i`; `visited (2i + 2)` is
`visited (2i + 1)` followed by `2i + 2`. -/
def visited : ℕ → List ℕ
  | 0 => []
  | t + 1 => if t % 2 = 0 then 1 :: (visited (t / 2)).map (fun j => 2 * j + 1) else visited t ++ [t + 1]
termination_by t => t
decreasing_by all_goals omega

end Cuthbert
