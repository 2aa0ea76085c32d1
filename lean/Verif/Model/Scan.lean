import Mathlib.Tactic.TypeStar
import Mathlib.Tactic.Common

/-!
# JAX control flow used by the offline interface

`jax.lax.scan` and `jax.lax.associative_scan`, on arrays with a leading time axis
(modelled as lists). Called from `cuthbert/filtering.py:60-76` and
`cuthbert/smoothing.py:99-120` in /repo. JAX itself is not in /repo: these two
definitions are part of the trusted reading of JAX (see DESIGN.md).
-/

namespace Cuthbert

variable {α β σ χ υ : Type*}

/-- `jax.lax.scan(body, init, xs)`: final carry and stacked outputs
(used at `cuthbert/filtering.py:72-76`). -/
def laxScan (body : σ → χ → σ × υ) : σ → List χ → σ × List υ
  | s, [] => (s, [])
  | s, x :: xs =>
    let r := body s x
    let rest := laxScan body r.1 xs
    (rest.1, r.2 :: rest.2)

/-- `jax.lax.scan(body, init, xs, reverse=True)`: the elements are visited from the
last to the first and every output is stored at the position of its input
(used at `cuthbert/smoothing.py:115-120`). -/
def laxScanRev (body : σ → χ → σ × υ) : σ → List χ → σ × List υ
  | s, [] => (s, [])
  | s, x :: xs =>
    let rest := laxScanRev body s xs
    let r := body rest.1 x
    (r.1, r.2 :: rest.2)

/-- The slice `xs[0::2]`. -/
def everyOther : List α → List α
  | [] => []
  | [x] => [x]
  | x :: _ :: xs => x :: everyOther xs

/-- `_interleave(a, b)`: `a[0], b[0], a[1], b[1], ...`. -/
def interleave : List α → List α → List α
  | [], ys => ys
  | x :: xs, ys => x :: interleave ys xs
termination_by xs ys => xs.length + ys.length

theorem everyOther_length : ∀ xs : List α, (everyOther xs).length = (xs.length + 1) / 2
  | [] => by simp [everyOther]
  | [_] => by simp [everyOther]
  | _ :: _ :: xs => by
    simp only [everyOther, List.length_cons, everyOther_length xs]; omega

/-- `jax.lax.associative_scan(fn, elems)`: the recursive odd/even algorithm of JAX.
Adjacent pairs are combined, the half-length sequence is scanned recursively to give the
results at odd positions, the results at even positions are obtained with one more
combination each, and both are interleaved
(used at `cuthbert/filtering.py:60-63`). -/
def associativeScan (op : α → α → α) (xs : List α) : List α :=
  if xs.length < 2 then xs
  else
    let odd := associativeScan op
      (List.zipWith op (everyOther xs.dropLast) (everyOther xs.tail))
    let evenTail :=
      if xs.length % 2 = 0 then List.zipWith op odd.dropLast (everyOther (xs.drop 2))
      else List.zipWith op odd (everyOther (xs.drop 2))
    interleave (xs.take 1 ++ evenTail) odd
termination_by xs.length
decreasing_by
  simp only [List.length_zipWith, everyOther_length, List.length_dropLast, List.length_tail]
  omega

/-- `jax.lax.associative_scan(fn, elems, reverse=True)`: flip, scan, flip back
(used at `cuthbert/smoothing.py:99-104`). -/
def associativeScanRev (op : α → α → α) (xs : List α) : List α :=
  (associativeScan op xs.reverse).reverse

end Cuthbert
