import Verif.Model.Scan
import Verif.Spec.Online

namespace Cuthbert
open Spec

variable {α β σ χ υ : Type*}

/-- Combine adjacent pairs, dropping an unpaired last element. -/
def pairUp (op : α → α → α) : List α → List α
  | [] => []
  | [_] => []
  | x :: y :: xs => op x y :: pairUp op xs

theorem zipWith_everyOther (op : α → α → α) : ∀ xs : List α,
    List.zipWith op (everyOther xs.dropLast) (everyOther xs.tail) = pairUp op xs
  | [] => rfl
  | [_] => rfl
  | [_, _] => rfl
  | x :: y :: z :: xs => by
    have ih := zipWith_everyOther op (z :: xs)
    cases xs with
    | nil => simp [everyOther, pairUp]
    | cons w ws =>
      simp only [List.tail_cons, List.dropLast_cons_cons] at ih ⊢
      simp only [everyOther, List.zipWith_cons_cons, pairUp]
      rw [show pairUp op (z :: w :: ws) = op z w :: pairUp op ws from rfl] at ih
      rw [← ih]

theorem pairUp_length (op : α → α → α) : ∀ xs : List α, (pairUp op xs).length = xs.length / 2
  | [] => by simp [pairUp]
  | [_] => by simp [pairUp]
  | _ :: _ :: xs => by simp only [pairUp, List.length_cons, pairUp_length op xs]; omega

theorem runningFold_length (op : α → α → α) : ∀ (a : α) (xs : List α),
    (runningFold op a xs).length = xs.length + 1
  | _, [] => rfl
  | a, x :: xs => by simp [runningFold, runningFold_length op (op a x) xs]

theorem zipWith_dropLast_right {γ δ : Type*} (f : α → γ → δ) (l : List α) (r : List γ)
    (h : r.length + 1 ≤ l.length) : List.zipWith f l.dropLast r = List.zipWith f l r := by
  induction l generalizing r with
  | nil => simp at h
  | cons a l ih =>
    cases r with
    | nil => simp
    | cons b r =>
      cases l with
      | nil => simp at h
      | cons c l =>
        simp only [List.dropLast_cons_cons, List.zipWith_cons_cons]
        rw [ih r (by simpa using h)]

theorem interleave_nil_left (ys : List α) : interleave [] ys = ys := by
  unfold interleave; rfl

theorem interleave_cons_left (x : α) (xs ys : List α) :
    interleave (x :: xs) ys = x :: interleave ys xs := by
  conv_lhs => unfold interleave

theorem associativeScan_nil (op : α → α → α) : associativeScan op [] = [] := by
  rw [associativeScan]; simp

theorem associativeScan_singleton (op : α → α → α) (x : α) : associativeScan op [x] = [x] := by
  rw [associativeScan]; simp

/-- Unfolding of the algorithm on at least two elements. -/
theorem associativeScan_cons_cons (op : α → α → α) (x y : α) (xs : List α) :
    associativeScan op (x :: y :: xs) =
      x :: interleave (associativeScan op (pairUp op (x :: y :: xs)))
        (if xs.length % 2 = 0 then
          List.zipWith op (associativeScan op (pairUp op (x :: y :: xs))).dropLast (everyOther xs)
        else List.zipWith op (associativeScan op (pairUp op (x :: y :: xs))) (everyOther xs)) := by
  rw [associativeScan]
  rw [if_neg (by simp)]
  rw [zipWith_everyOther]
  have : (x :: y :: xs).length % 2 = 0 ↔ xs.length % 2 = 0 := by
    simp only [List.length_cons]; omega
  simp only [this, List.drop_succ_cons, List.drop_zero, List.take_succ_cons, List.take_zero,
    List.cons_append, List.nil_append]
  rw [interleave_cons_left]

theorem associativeScan_length (op : α → α → α) : ∀ xs : List α,
    (associativeScan op xs).length = xs.length := by
  intro xs
  induction h : xs.length using Nat.strongRecOn generalizing xs with
  | _ n ih =>
    match xs with
    | [] => rw [associativeScan]; simp at *; omega
    | [_] => rw [associativeScan]; simp at *; omega
    | x :: y :: xs =>
      have hint : ∀ (k : Nat) (a b : List α), a.length + b.length = k →
          (interleave a b).length = k := by
        intro k
        induction k with
        | zero =>
          intro a b hab
          have ha : a = [] := List.length_eq_zero_iff.mp (by omega)
          have hb : b = [] := List.length_eq_zero_iff.mp (by omega)
          subst ha; subst hb; rw [interleave_nil_left]; rfl
        | succ k ihk =>
          intro a b hab
          cases a with
          | nil => rw [interleave_nil_left]; simpa using hab
          | cons a as =>
            rw [interleave_cons_left, List.length_cons, ihk]
            simp only [List.length_cons] at hab; omega
      have h2 := ih _ (by subst h; rw [pairUp_length]; simp only [List.length_cons]; omega)
        (pairUp op (x :: y :: xs)) rfl
      rw [associativeScan_cons_cons, List.length_cons, hint _ _ _ rfl]
      rw [pairUp_length] at h2
      simp only [List.length_cons] at h h2
      split
      · simp only [List.length_zipWith, List.length_dropLast, h2, everyOther_length]; omega
      · simp only [List.length_zipWith, h2, everyOther_length]; omega

section assoc
variable (op : α → α → α) (P : α → Prop)
  (hcl : ∀ a b, P a → P b → P (op a b))
  (hassoc : ∀ a b c, P a → P b → P c → op (op a b) c = op a (op b c))
include hcl hassoc

omit hassoc in
theorem pairUp_mem : ∀ xs : List α, (∀ x ∈ xs, P x) → ∀ y ∈ pairUp op xs, P y
  | [], _, y, hy => by simp [pairUp] at hy
  | [_], _, y, hy => by simp [pairUp] at hy
  | x :: z :: xs, h, y, hy => by
    simp only [pairUp, List.mem_cons] at hy
    rcases hy with rfl | hy
    · exact hcl _ _ (h _ (by simp)) (h _ (by simp))
    · exact pairUp_mem xs (fun w hw => h w (by simp [hw])) y hy

theorem interleave_runningFold : ∀ (c : α) (xs : List α), P c → (∀ x ∈ xs, P x) →
    interleave (runningFold op c (pairUp op xs))
      (List.zipWith op (runningFold op c (pairUp op xs)) (everyOther xs)) = runningFold op c xs
  | c, [], _, _ => by
    simp [pairUp, runningFold, everyOther, interleave_cons_left, interleave_nil_left]
  | c, [x], _, _ => by
    simp [pairUp, runningFold, everyOther, interleave_cons_left, interleave_nil_left]
  | c, x :: y :: xs, hc, h => by
    have hx := h x (by simp)
    have hy := h y (by simp)
    simp only [pairUp, runningFold, everyOther, List.zipWith_cons_cons, interleave_cons_left]
    rw [interleave_runningFold (op c (op x y)) xs (hcl _ _ hc (hcl _ _ hx hy))
      (fun w hw => h w (by simp [hw])), hassoc c x y hc hx hy]

/-- Under associativity (on a closed set of elements) `associative_scan` computes the
left-nested running products. -/
theorem associativeScan_eq_runningFold (a : α) (xs : List α) (h : ∀ x ∈ a :: xs, P x) :
    associativeScan op (a :: xs) = runningFold op a xs := by
  induction hn : xs.length using Nat.strongRecOn generalizing a xs with
  | _ n ih =>
    match xs with
    | [] => rw [associativeScan]; simp [runningFold]
    | y :: xs =>
      have hpa : pairUp op (a :: y :: xs) = op a y :: pairUp op xs := rfl
      have hodd : associativeScan op (pairUp op (a :: y :: xs)) =
          runningFold op (op a y) (pairUp op xs) := by
        rw [hpa]
        refine ih _ ?_ (op a y) (pairUp op xs) ?_ rfl
        · rw [pairUp_length]; simp only [List.length_cons] at hn; omega
        · have := pairUp_mem op P hcl (a :: y :: xs) h
          rwa [hpa] at this
      rw [associativeScan_cons_cons, hodd]
      have hz : (if xs.length % 2 = 0 then
          List.zipWith op (runningFold op (op a y) (pairUp op xs)).dropLast (everyOther xs)
          else List.zipWith op (runningFold op (op a y) (pairUp op xs)) (everyOther xs)) =
          List.zipWith op (runningFold op (op a y) (pairUp op xs)) (everyOther xs) := by
        split
        · apply zipWith_dropLast_right
          rw [runningFold_length, pairUp_length, everyOther_length]; omega
        · rfl
      rw [hz, interleave_runningFold op P hcl hassoc _ _ (hcl _ _ (h _ (by simp)) (h _ (by simp)))
        (fun w hw => h w (by simp [hw]))]
      rfl

end assoc

theorem runningFold_mem (op : α → α → α) (P : α → Prop) (hcl : ∀ a b, P a → P b → P (op a b)) :
    ∀ (a : α) (xs : List α), (∀ x ∈ a :: xs, P x) → ∀ y ∈ runningFold op a xs, P y
  | a, [], h, y, hy => by
    simp only [runningFold, List.mem_singleton] at hy; subst hy; exact h _ (by simp)
  | a, x :: xs, h, y, hy => by
    simp only [runningFold, List.mem_cons] at hy
    rcases hy with rfl | hy
    · exact h _ (by simp)
    · refine runningFold_mem op P hcl _ xs ?_ y hy
      intro z hz
      rcases List.mem_cons.mp hz with rfl | hz
      · exact hcl _ _ (h _ (by simp)) (h _ (by simp))
      · exact h _ (by simp [hz])

section hom
variable (op : α → α → α) (op' : β → β → β) (q : α → β) (P : α → Prop)
  (hcl : ∀ a b, P a → P b → P (op a b))
  (hq : ∀ a b, P a → P b → q (op a b) = op' (q a) (q b))
include hcl hq

theorem runningFold_map : ∀ (a : α) (xs : List α), (∀ x ∈ a :: xs, P x) →
    (runningFold op a xs).map q = runningFold op' (q a) (xs.map q)
  | a, [], _ => rfl
  | a, x :: xs, h => by
    simp only [runningFold, List.map_cons]
    rw [runningFold_map (op a x) xs, hq _ _ (h _ (by simp)) (h _ (by simp))]
    intro z hz
    rcases List.mem_cons.mp hz with rfl | hz
    · exact hcl _ _ (h _ (by simp)) (h _ (by simp))
    · exact h _ (by simp [hz])

omit hcl in
theorem pairUp_map : ∀ xs : List α, (∀ x ∈ xs, P x) →
    (pairUp op xs).map q = pairUp op' (xs.map q)
  | [], _ => rfl
  | [_], _ => rfl
  | x :: y :: xs, h => by
    simp only [pairUp, List.map_cons]
    rw [hq _ _ (h _ (by simp)) (h _ (by simp)), pairUp_map xs (fun w hw => h w (by simp [hw]))]

omit hcl in
theorem zipWith_map_hom : ∀ (l r : List α), (∀ x ∈ l, P x) → (∀ x ∈ r, P x) →
    (List.zipWith op l r).map q = List.zipWith op' (l.map q) (r.map q)
  | [], _, _, _ => by simp
  | _ :: _, [], _, _ => by simp
  | a :: l, b :: r, hl, hr => by
    simp only [List.zipWith_cons_cons, List.map_cons]
    rw [hq _ _ (hl _ (by simp)) (hr _ (by simp)),
      zipWith_map_hom l r (fun w hw => hl w (by simp [hw])) (fun w hw => hr w (by simp [hw]))]

omit hq in
theorem zipWith_mem_closed : ∀ (l r : List α), (∀ x ∈ l, P x) → (∀ x ∈ r, P x) →
    ∀ y ∈ List.zipWith op l r, P y
  | [], _, _, _ => by simp
  | _ :: _, [], _, _ => by simp
  | a :: l, b :: r, hl, hr => by
    intro y hy
    simp only [List.zipWith_cons_cons, List.mem_cons] at hy
    rcases hy with rfl | hy
    · exact hcl _ _ (hl _ (by simp)) (hr _ (by simp))
    · exact zipWith_mem_closed l r (fun w hw => hl w (by simp [hw]))
        (fun w hw => hr w (by simp [hw])) y hy

omit hcl hq in
theorem everyOther_map : ∀ xs : List α, (everyOther xs).map q = everyOther (xs.map q)
  | [] => rfl
  | [_] => rfl
  | _ :: _ :: xs => by simp [everyOther, everyOther_map xs]

omit hcl hq in
theorem everyOther_mem : ∀ xs : List α, ∀ y ∈ everyOther xs, y ∈ xs
  | [], y, hy => by simp [everyOther] at hy
  | [_], y, hy => by simpa [everyOther] using hy
  | x :: z :: xs, y, hy => by
    simp only [everyOther, List.mem_cons] at hy ⊢
    rcases hy with rfl | hy
    · exact Or.inl rfl
    · exact Or.inr (Or.inr (everyOther_mem xs y hy))

omit hcl hq in
theorem interleave_map : ∀ (k : Nat) (l r : List α), l.length + r.length = k →
    (interleave l r).map q = interleave (l.map q) (r.map q) := by
  intro k
  induction k with
  | zero =>
    intro l r h
    have hl : l = [] := List.length_eq_zero_iff.mp (by omega)
    subst hl; simp [interleave_nil_left]
  | succ k ih =>
    intro l r h
    cases l with
    | nil => simp [interleave_nil_left]
    | cons a l =>
      simp only [interleave_cons_left, List.map_cons]
      rw [ih r l (by simp only [List.length_cons] at h; omega)]

omit hcl hq in
theorem interleave_mem : ∀ (k : Nat) (l r : List α), l.length + r.length = k →
    ∀ y ∈ interleave l r, y ∈ l ∨ y ∈ r := by
  intro k
  induction k with
  | zero =>
    intro l r h y hy
    have hl : l = [] := List.length_eq_zero_iff.mp (by omega)
    subst hl; rw [interleave_nil_left] at hy; exact Or.inr hy
  | succ k ih =>
    intro l r h y hy
    cases l with
    | nil => rw [interleave_nil_left] at hy; exact Or.inr hy
    | cons a l =>
      rw [interleave_cons_left, List.mem_cons] at hy
      rcases hy with rfl | hy
      · simp
      · rcases ih r l (by simp only [List.length_cons] at h; omega) y hy with h | h
        · exact Or.inr h
        · exact Or.inl (by simp [h])

/-- `associative_scan` commutes with a homomorphism of the combination, and stays in a
closed set of elements. -/
theorem associativeScan_map (xs : List α) (h : ∀ x ∈ xs, P x) :
    (associativeScan op xs).map q = associativeScan op' (xs.map q) ∧
      ∀ y ∈ associativeScan op xs, P y := by
  induction hn : xs.length using Nat.strongRecOn generalizing xs with
  | _ n ih =>
    match xs with
    | [] => simp [associativeScan_nil]
    | [x] => simpa [associativeScan_singleton] using h
    | x :: y :: xs =>
      have hp := pairUp_mem op P hcl (x :: y :: xs) h
      obtain ⟨h1, h2⟩ := ih _ (by subst hn; rw [pairUp_length]; simp only [List.length_cons]; omega)
        (pairUp op (x :: y :: xs)) hp rfl
      have hxs : ∀ w ∈ everyOther xs, P w :=
        fun w hw => h w (by simp [everyOther_mem xs w hw])
      have hdl : ∀ w ∈ (associativeScan op (pairUp op (x :: y :: xs))).dropLast, P w :=
        fun w hw => h2 w (List.dropLast_subset _ hw)
      have hpm := pairUp_map op op' q P hq (x :: y :: xs) h
      rw [hpm] at h1
      constructor
      · rw [associativeScan_cons_cons, List.map_cons, List.map_cons, List.map_cons,
          associativeScan_cons_cons, interleave_map q _ _ _ rfl, h1]
        simp only [List.map_cons, List.length_map]
        congr 2
        split
        · rw [zipWith_map_hom op op' q P hq _ _ hdl hxs, everyOther_map, List.map_dropLast, h1]
          rfl
        · rw [zipWith_map_hom op op' q P hq _ _ h2 hxs, everyOther_map, h1]
          rfl
      · intro w hw
        rw [associativeScan_cons_cons, List.mem_cons] at hw
        rcases hw with rfl | hw
        · exact h _ (by simp)
        · rcases interleave_mem _ _ _ rfl w hw with hw | hw
          · exact h2 w hw
          · split at hw
            · exact zipWith_mem_closed op P hcl _ _ hdl hxs w hw
            · exact zipWith_mem_closed op P hcl _ _ h2 hxs w hw

end hom

end Cuthbert
