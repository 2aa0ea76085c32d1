import Verif.Spec.Pytree
import Mathlib.Data.List.Forall2
import Mathlib.Analysis.SpecialFunctions.Pow.Real
import Mathlib.Tactic.Common
import Mathlib.Tactic.Linarith
import Mathlib.Tactic.Positivity

/-!
# Property C61: `dummy_tree_like`
-/

namespace Cuthbert
namespace Utils

theorem finfoMin_eq (f : FloatFmt) :
    finfoMin f = ((-(2 ^ f.prec - 1 : ℤ) : ℤ) : ℝ) * (2 : ℝ) ^ (f.emax - f.prec + 1) := by
  have h2 : (2 : ℝ) ≠ 0 := two_ne_zero
  have h : (2 : ℝ) ^ (f.emax - f.prec + 1) = (2 : ℝ) ^ (1 - (f.prec : ℤ)) * 2 ^ f.emax := by
    rw [← zpow_add₀ h2]; congr 1; ring
  have h' : (2 : ℝ) ^ (1 - (f.prec : ℤ)) * 2 ^ f.prec = 2 := by
    rw [← zpow_natCast, ← zpow_add₀ h2]; simp
  rw [finfoMin, h]
  push_cast
  linear_combination (2 : ℝ) ^ f.emax * h'

/-- The value with which the code fills an array is the least value of its data type. -/
theorem minVal_isLeast {d : DType} {v : Scalar} (h : minVal d = .ok v) : IsLeastOf d v := by
  cases d with
  | int k =>
    cases h
    refine ⟨⟨le_rfl, ?_⟩, fun z hz => hz.1⟩
    have : (0 : ℤ) < 2 ^ k := by positivity
    linarith
  | uint k =>
    cases h
    exact ⟨⟨le_rfl, by positivity⟩, fun z hz => hz.1⟩
  | float f =>
    cases h
    refine ⟨⟨-(2 ^ f.prec - 1), f.emax - f.prec + 1, ?_, ?_, le_rfl, finfoMin_eq f⟩, ?_⟩
    · have : (1 : ℤ) ≤ 2 ^ f.prec := one_le_pow₀ (by norm_num)
      rw [abs_neg, abs_of_nonneg (by linarith)]
      linarith
    · cases f <;> simp [FloatFmt.emax, FloatFmt.prec]
    · rintro r ⟨m, e, hm, -, he, rfl⟩
      rw [finfoMin_eq]
      have h1 : (-(2 ^ f.prec - 1) : ℤ) ≤ m := by
        have := neg_lt_of_abs_lt hm
        linarith [Int.add_one_le_iff.2 this]
      have h1' : ((-(2 ^ f.prec - 1) : ℤ) : ℝ) ≤ m := by exact_mod_cast h1
      have h0 : ((-(2 ^ f.prec - 1) : ℤ) : ℝ) ≤ 0 := by
        have : (1 : ℤ) ≤ 2 ^ f.prec := one_le_pow₀ (by norm_num)
        have h : (-(2 ^ f.prec - 1) : ℤ) ≤ 0 := by linarith
        exact_mod_cast h
      have h2 : (2 : ℝ) ^ e ≤ 2 ^ (f.emax - f.prec + 1) := zpow_le_zpow_right₀ (by norm_num) he
      calc _ ≤ ((-(2 ^ f.prec - 1) : ℤ) : ℝ) * (2 : ℝ) ^ e := mul_le_mul_of_nonpos_left h2 h0
        _ ≤ _ := mul_le_mul_of_nonneg_right h1' (by positivity)
  | bool =>
    cases h
    exact ⟨Set.mem_univ _, fun b _ => Bool.false_le b⟩
  | other n => cases h

section Tree

variable {α β : Type} {f : α → Except Err β}

mutual
theorem mapM_ok : ∀ (t : Tree α) {d : Tree β}, t.mapM f = .ok d →
    d.skeleton = t.skeleton ∧ List.Forall₂ (fun a b => f a = .ok b) t.leaves d.leaves
  | .leaf a, d, h => by
    rw [Tree.mapM] at h
    cases hf : f a with
    | error e => rw [hf] at h; cases h
    | ok b =>
      rw [hf] at h; cases h
      simp [Tree.skeleton, Tree.leaves, hf]
  | .node l cs, d, h => by
    rw [Tree.mapM] at h
    cases hc : Tree.mapMs f cs with
    | error e => rw [hc] at h; cases h
    | ok ds =>
      rw [hc] at h; cases h
      obtain ⟨h1, h2⟩ := mapMs_ok cs hc
      exact ⟨by rw [Tree.skeleton, Tree.skeleton, h1], by rw [Tree.leaves, Tree.leaves]; exact h2⟩
theorem mapMs_ok : ∀ (ts : List (Tree α)) {ds : List (Tree β)}, Tree.mapMs f ts = .ok ds →
    Tree.skeletonL ds = Tree.skeletonL ts ∧
      List.Forall₂ (fun a b => f a = .ok b) (Tree.leavesL ts) (Tree.leavesL ds)
  | [], ds, h => by rw [Tree.mapMs] at h; cases h; simp [Tree.skeletonL, Tree.leavesL]
  | t :: ts, ds, h => by
    rw [Tree.mapMs] at h
    cases ht : Tree.mapM f t with
    | error e => rw [ht] at h; cases h
    | ok d =>
      cases hts : Tree.mapMs f ts with
      | error e => rw [ht, hts] at h; cases h
      | ok ds' =>
        rw [ht, hts] at h; cases h
        obtain ⟨h1, h2⟩ := mapM_ok t ht
        obtain ⟨h3, h4⟩ := mapMs_ok ts hts
        refine ⟨by rw [Tree.skeletonL, Tree.skeletonL, h1, h3], ?_⟩
        rw [Tree.leavesL, Tree.leavesL]
        exact List.rel_append h2 h4
end

/-- A left-to-right traversal fails with `e` iff some leaf raises `e` and no leaf before it raises. -/
def FirstError (f : α → Except Err β) (l : List α) (e : Err) : Prop :=
  ∃ pre a post, l = pre ++ a :: post ∧ (∀ x ∈ pre, ∃ b, f x = .ok b) ∧ f a = .error e

mutual
theorem mapM_error : ∀ (t : Tree α) {e : Err}, t.mapM f = .error e → FirstError f t.leaves e
  | .leaf a, e, h => by
    rw [Tree.mapM] at h
    cases hf : f a with
    | error e' => rw [hf] at h; cases h; exact ⟨[], a, [], by simp [Tree.leaves], by simp, hf⟩
    | ok b => rw [hf] at h; cases h
  | .node l cs, e, h => by
    rw [Tree.mapM] at h
    cases hc : Tree.mapMs f cs with
    | error e' => rw [hc] at h; cases h; rw [Tree.leaves]; exact mapMs_error cs hc
    | ok ds => rw [hc] at h; cases h
theorem mapMs_error : ∀ (ts : List (Tree α)) {e : Err}, Tree.mapMs f ts = .error e →
    FirstError f (Tree.leavesL ts) e
  | [], e, h => by rw [Tree.mapMs] at h; cases h
  | t :: ts, e, h => by
    rw [Tree.mapMs] at h
    rw [Tree.leavesL]
    cases ht : Tree.mapM f t with
    | error e' =>
      rw [ht] at h; cases h
      obtain ⟨pre, a, post, hl, hp, ha⟩ := mapM_error t ht
      exact ⟨pre, a, post ++ Tree.leavesL ts, by rw [hl]; simp, hp, ha⟩
    | ok d =>
      cases hts : Tree.mapMs f ts with
      | ok ds' => rw [ht, hts] at h; cases h
      | error e' =>
        rw [ht, hts] at h; cases h
        obtain ⟨pre, a, post, hl, hp, ha⟩ := mapMs_error ts hts
        refine ⟨t.leaves ++ pre, a, post, by rw [hl]; simp, fun x hx => ?_, ha⟩
        rcases List.mem_append.1 hx with hx | hx
        · have h2 := (mapM_ok t ht).2
          obtain ⟨i, hi, rfl⟩ := List.getElem_of_mem hx
          exact ⟨_, h2.get hi (by rw [← h2.length_eq]; exact hi)⟩
        · exact hp x hx
end

theorem forall₂_right {l : List α} {m : List β} (h : List.Forall₂ (fun a b => f a = .ok b) l m) :
    ∀ x ∈ l, ∃ b, f x = .ok b := fun x hx => by
  obtain ⟨i, hi, rfl⟩ := List.getElem_of_mem hx
  exact ⟨_, h.get hi (by rw [← h.length_eq]; exact hi)⟩

theorem mapM_error_iff (t : Tree α) (e : Err) : t.mapM f = .error e ↔ FirstError f t.leaves e := by
  refine ⟨mapM_error t, fun ⟨pre, a, post, hl, hp, ha⟩ => ?_⟩
  cases h : t.mapM f with
  | ok d =>
    obtain ⟨b, hb⟩ := forall₂_right (mapM_ok t h).2 a (by rw [hl]; simp)
    rw [hb] at ha; cases ha
  | error e' =>
    obtain ⟨pre', a', post', hl', hp', ha'⟩ := mapM_error t h
    have key : pre = pre' ∧ a :: post = a' :: post' := by
      have hlen : pre.length = pre'.length := by
        rcases Nat.lt_trichotomy pre.length pre'.length with hlt | heq | hgt
        · obtain ⟨b, hb⟩ := hp' a (by
            have : (pre ++ a :: post)[pre.length]? = some a := by simp
            rw [← hl, hl', List.getElem?_append_left hlt] at this
            exact List.mem_of_getElem? this)
          rw [hb] at ha; cases ha
        · exact heq
        · obtain ⟨b, hb⟩ := hp a' (by
            have : (pre' ++ a' :: post')[pre'.length]? = some a' := by simp
            rw [← hl', hl, List.getElem?_append_left hgt] at this
            exact List.mem_of_getElem? this)
          rw [hb] at ha'; cases ha'
      exact List.append_inj (hl.symm.trans hl') hlen
    have := (List.cons.inj key.2).1
    rw [← this, ha] at ha'
    cases ha'
    rfl

mutual
theorem tree_ext : ∀ (s t : Tree α), s.skeleton = t.skeleton → s.leaves = t.leaves → s = t
  | .leaf a, .leaf b, _, h => by simp [Tree.leaves] at h; rw [h]
  | .leaf a, .node l cs, h, _ => by simp [Tree.skeleton] at h
  | .node l cs, .leaf b, h, _ => by simp [Tree.skeleton] at h
  | .node l cs, .node l' cs', h, h' => by
    simp only [Tree.skeleton, Tree.node.injEq] at h
    rw [Tree.leaves, Tree.leaves] at h'
    rw [h.1, treeL_ext cs cs' h.2 h']
theorem treeL_ext : ∀ (s t : List (Tree α)), Tree.skeletonL s = Tree.skeletonL t →
    Tree.leavesL s = Tree.leavesL t → s = t
  | [], [], _, _ => rfl
  | [], t :: ts, h, _ => by simp [Tree.skeletonL] at h
  | s :: ss, [], h, _ => by simp [Tree.skeletonL] at h
  | s :: ss, t :: ts, h, h' => by
    simp only [Tree.skeletonL, List.cons.injEq] at h
    rw [Tree.leavesL, Tree.leavesL] at h'
    have hlen := leaves_length s t h.1
    obtain ⟨h1, h2⟩ := List.append_inj h' hlen
    rw [tree_ext s t h.1 h1, treeL_ext ss ts h.2 h2]
theorem leaves_length {γ : Type} : ∀ (s : Tree α) (t : Tree γ), s.skeleton = t.skeleton →
    s.leaves.length = t.leaves.length
  | .leaf a, .leaf b, _ => rfl
  | .leaf a, .node l cs, h => by simp [Tree.skeleton] at h
  | .node l cs, .leaf b, h => by simp [Tree.skeleton] at h
  | .node l cs, .node l' cs', h => by
    simp only [Tree.skeleton, Tree.node.injEq] at h
    rw [Tree.leaves, Tree.leaves]
    exact leavesL_length cs cs' h.2
theorem leavesL_length {γ : Type} : ∀ (s : List (Tree α)) (t : List (Tree γ)),
    Tree.skeletonL s = Tree.skeletonL t → (Tree.leavesL s).length = (Tree.leavesL t).length
  | [], [], _ => rfl
  | [], t :: ts, h => by simp [Tree.skeletonL] at h
  | s :: ss, [], h => by simp [Tree.skeletonL] at h
  | s :: ss, t :: ts, h => by
    simp only [Tree.skeletonL, List.cons.injEq] at h
    rw [Tree.leavesL, Tree.leavesL, List.length_append, List.length_append, leaves_length s t h.1,
      leavesL_length ss ts h.2]
end

end Tree

theorem heldAs_iff {x64 : Bool} {d d' : DType} : HeldAs x64 d d' ↔ canonical x64 d = d' := by
  constructor
  · rintro (_ | _ | _ | _ | ⟨_, hi, hu, hf⟩) <;> simp_all [canonical]
  · rintro rfl
    cases x64
    · by_cases hi : d = .int 63
      · subst hi; exact .int
      by_cases hu : d = .uint 64
      · subst hu; exact .uint
      by_cases hf : d = .float .f64
      · subst hf; exact .float
      have : canonical false d = d := by simp [canonical, hi, hu, hf]
      rw [this]
      exact .narrow d hi hu hf
    · exact .same d

/-- The model's `asarray` gives exactly the shape and data type of the specification. -/
theorem hasType_iff {x64 : Bool} {l : Leaf} {s : List ℕ} {d : DType} :
    l.HasType x64 s d ↔ asarray x64 l = .ok (s, d) := by
  constructor
  · rintro (⟨a, h⟩ | ⟨s, d, h⟩ | ⟨z, h⟩ | ⟨z, h⟩ | _ | _ | _ | _)
    · rw [asarray, heldAs_iff.1 h]
    · rw [asarray, heldAs_iff.1 h]
    · simp only [asarray]; simp only [Bool.false_eq_true, if_false]; rw [if_pos h]; rfl
    · simp only [asarray]; simp only [if_true]; rw [if_pos h]; rfl
    · rfl
    · rfl
    · rfl
    · rfl
  · intro h
    cases l with
    | array a => simp only [asarray] at h; cases h; exact .array a (heldAs_iff.2 rfl)
    | struct s' d' => simp only [asarray] at h; cases h; exact .struct s d' (heldAs_iff.2 rfl)
    | pyInt z =>
      simp only [asarray] at h
      cases x64
      · simp only [Bool.false_eq_true, if_false] at h
        split at h
        · cases h; exact .pyInt32 z (by assumption)
        · cases h
      · simp only [if_true] at h
        split at h
        · cases h; exact .pyInt64 z (by assumption)
        · cases h
    | pyFloat x => cases x64 <;> cases h <;> constructor
    | pyBool b => cases h; constructor
    | pyComplex _ _ => cases h; constructor
    | object n => cases h

theorem dummyArray_ok {x64 : Bool} {l : Leaf} {a : Arr} (h : dummyArray x64 l = .ok a) :
    l.HasType x64 a.shape a.dtype ∧ ∃ v, minVal a.dtype = .ok v ∧ a.data = List.replicate a.shape.prod v := by
  rw [dummyArray] at h
  cases hl : asarray x64 l with
  | error e => rw [hl] at h; cases h
  | ok sd =>
    obtain ⟨s, d⟩ := sd
    rw [hl] at h
    cases hv : minVal d with
    | error e => simp only [hv, bind, Except.bind] at h; cases h
    | ok v =>
      simp only [hv, bind, Except.bind] at h
      cases h
      exact ⟨hasType_iff.2 hl, v, hv, rfl⟩

/-- **C61.** When `dummy_tree_like` returns, the result has the structure of its argument, and leaf for
leaf the shape and data type of the argument, with every element the least value of that type. -/
theorem dummy_tree_preserves {x64 : Bool} {t : Tree Leaf} {d : Tree Arr} (h : dummyTreeLike x64 t = .ok d) :
    d.skeleton = t.skeleton ∧
      List.Forall₂ (fun l a => l.HasType x64 a.shape a.dtype ∧ a.data.length = a.shape.prod ∧
        ∀ v ∈ a.data, IsLeastOf a.dtype v) t.leaves d.leaves := by
  obtain ⟨h1, h2⟩ := mapM_ok t h
  refine ⟨h1, h2.imp fun l a ha => ?_⟩
  obtain ⟨hl, v, hv, hd⟩ := dummyArray_ok ha
  refine ⟨hl, by rw [hd, List.length_replicate], fun w hw => ?_⟩
  rw [hd] at hw
  rw [List.eq_of_mem_replicate hw]
  exact minVal_isLeast hv

/-- **C61.** It returns iff every leaf is an array, a shape-and-type description or a number of a
supported data type. -/
theorem dummy_tree_ok_iff (x64 : Bool) (t : Tree Leaf) :
    (∃ d, dummyTreeLike x64 t = .ok d) ↔
      ∀ l ∈ t.leaves, ∃ s d, l.HasType x64 s d ∧ d.Supported := by
  constructor
  · rintro ⟨d, h⟩ l hl
    obtain ⟨a, ha⟩ := forall₂_right (mapM_ok t h).2 l hl
    obtain ⟨h1, v, hv, -⟩ := dummyArray_ok ha
    refine ⟨_, _, h1, ?_⟩
    cases hd : a.dtype <;> rw [hd] at hv <;> trivial
  · intro h
    cases hd : dummyTreeLike x64 t with
    | ok d => exact ⟨d, rfl⟩
    | error e =>
      exfalso
      obtain ⟨pre, l, post, hl, -, he⟩ := (mapM_error_iff t e).1 hd
      obtain ⟨s, d, h1, h2⟩ := h l (by rw [hl]; simp)
      rw [dummyArray, hasType_iff.1 h1] at he
      cases d <;> first | exact h2 | simp [bind, Except.bind, minVal] at he

/-- **C61.** It raises `ValueError` iff the first leaf that cannot be filled is an array of a data type
that is neither integer, floating nor boolean. -/
theorem dummy_tree_valueError_iff (x64 : Bool) (t : Tree Leaf) :
    dummyTreeLike x64 t = .error .valueError ↔
      ∃ pre l post, t.leaves = pre ++ l :: post ∧ (∀ x ∈ pre, ∃ s d, x.HasType x64 s d ∧ d.Supported) ∧
        ∃ s d, l.HasType x64 s d ∧ ¬ d.Supported := by
  have hok : ∀ x : Leaf, (∃ b, dummyArray x64 x = .ok b) ↔ ∃ s d, x.HasType x64 s d ∧ d.Supported := fun x => by
    have := dummy_tree_ok_iff x64 (.leaf x)
    simp only [Tree.leaves, List.mem_singleton, forall_eq] at this
    rw [← this]
    constructor
    · rintro ⟨b, hb⟩; exact ⟨.leaf b, by rw [dummyTreeLike, Tree.mapM, hb]; rfl⟩
    · rintro ⟨d, hd⟩
      cases hb : dummyArray x64 x with
      | ok b => exact ⟨b, rfl⟩
      | error e => rw [dummyTreeLike, Tree.mapM, hb] at hd; cases hd
  have herr : ∀ x : Leaf, dummyArray x64 x = .error .valueError ↔ ∃ s d, x.HasType x64 s d ∧ ¬ d.Supported := by
    intro x
    rw [dummyArray]
    constructor
    · intro h
      cases hx : asarray x64 x with
      | error e =>
        exfalso
        rw [hx] at h
        have he : e = .valueError := by cases h; rfl
        subst he
        cases x <;> simp only [asarray] at hx <;> try (cases hx)
        split at hx <;> split at hx <;> cases hx
      | ok sd =>
        obtain ⟨s, d⟩ := sd
        refine ⟨s, d, hasType_iff.2 hx, fun hd => ?_⟩
        rw [hx] at h
        cases d <;> first | exact hd | simp [bind, Except.bind, minVal] at h
    · rintro ⟨s, d, hx, hd⟩
      rw [hasType_iff.1 hx]
      cases d <;> first | exact absurd trivial hd | rfl
  rw [dummyTreeLike, mapM_error_iff, FirstError]
  simp only [hok, herr]

/-- **C61.** The result depends only on the structure and on the shapes and data types of the leaves, not
on their values. -/
theorem dummy_tree_ignores_values {x64 : Bool} {t t' : Tree Leaf} (hs : t.skeleton = t'.skeleton)
    (ht : List.Forall₂ (fun a b : Leaf => ∃ s d, a.HasType x64 s d ∧ b.HasType x64 s d) t.leaves t'.leaves) :
    dummyTreeLike x64 t = dummyTreeLike x64 t' := by
  have hl : t.leaves.map (asarray x64) = t'.leaves.map (asarray x64) := by
    have : ∀ {l m : List Leaf}, List.Forall₂ (fun a b : Leaf => ∃ s d, a.HasType x64 s d ∧
        b.HasType x64 s d) l m → l.map (asarray x64) = m.map (asarray x64) := by
      intro l m h
      induction h with
      | nil => rfl
      | cons hab _ ih =>
        obtain ⟨s, d, ha, hb⟩ := hab
        rw [List.map_cons, List.map_cons, ih, hasType_iff.1 ha, hasType_iff.1 hb]
    exact this ht
  have hmap : t.leaves.map (dummyArray x64) = t'.leaves.map (dummyArray x64) := by
    have hg : dummyArray x64 = (fun r : Except Err (List ℕ × DType) => do
        let sd ← r
        let v ← minVal sd.2
        (.ok ⟨sd.1, sd.2, List.replicate sd.1.prod v⟩ : Except Err Arr)) ∘ asarray x64 := rfl
    rw [hg, ← List.map_map, ← List.map_map, hl]
  have hlen : t.leaves.length = t'.leaves.length := leaves_length t t' hs
  have hget : ∀ (i : ℕ) (hi : i < t.leaves.length) (hi' : i < t'.leaves.length),
      dummyArray x64 (t.leaves[i]) = dummyArray x64 (t'.leaves[i]) := fun i hi hi' => by
    have := congrArg (fun l => l[i]?) hmap
    simpa [hi, hi'] using this
  cases h : dummyTreeLike x64 t with
  | ok d =>
    cases h' : dummyTreeLike x64 t' with
    | ok d' =>
      obtain ⟨h1, h2⟩ := mapM_ok t h
      obtain ⟨h1', h2'⟩ := mapM_ok t' h'
      have : d = d' := by
        refine tree_ext d d' (by rw [h1, h1', hs]) (List.ext_getElem ?_ fun i hi hi' => ?_)
        · rw [← h2.length_eq, ← h2'.length_eq, hlen]
        · have a := h2.get (by rw [h2.length_eq]; exact hi) hi
          have b := h2'.get (by rw [h2'.length_eq]; exact hi') hi'
          simp only [List.get_eq_getElem] at a b
          rw [hget i _ (by rw [h2'.length_eq]; exact hi'), b] at a
          exact (Except.ok.inj a).symm
      rw [this]
    | error e =>
      exfalso
      obtain ⟨pre, l, post, hl, -, he⟩ := (mapM_error_iff t' e).1 h'
      have hi' : pre.length < t'.leaves.length := by rw [hl]; simp
      have := hget pre.length (by rw [hlen]; exact hi') hi'
      obtain ⟨b, hb⟩ := forall₂_right (mapM_ok t h).2 _ (List.getElem_mem (by rw [hlen]; exact hi'))
      rw [hb] at this
      have hle : t'.leaves[pre.length] = l := by simp [hl]
      rw [hle, he] at this
      cases this
  | error e =>
    obtain ⟨pre, l, post, hl', hp, he⟩ := (mapM_error_iff t e).1 h
    refine ((mapM_error_iff t' e).2 ⟨t'.leaves.take pre.length, t'.leaves[pre.length]'(by
      rw [← hlen, hl']; simp), t'.leaves.drop (pre.length + 1), ?_, ?_, ?_⟩).symm
    · rw [List.getElem_cons_drop, List.take_append_drop]
    · intro x hx
      obtain ⟨i, hi, rfl⟩ := List.getElem_of_mem hx
      rw [List.length_take] at hi
      rw [List.getElem_take]
      have hi0 : i < pre.length := lt_of_lt_of_le hi (min_le_left _ _)
      have hi1 : i < t.leaves.length := by rw [hl']; simp; omega
      rw [← hget i hi1]
      refine hp _ ?_
      have : t.leaves[i] = pre[i] := by simp [hl', List.getElem_append_left hi0]
      rw [this]; exact List.getElem_mem hi0
    · have hi1 : pre.length < t.leaves.length := by rw [hl']; simp
      rw [← hget _ hi1]
      have : t.leaves[pre.length] = l := by simp [hl']
      rw [this, he]

theorem canonical_canonical (x64 : Bool) (d : DType) : canonical x64 (canonical x64 d) = canonical x64 d := by
  unfold canonical
  split_ifs <;> simp_all

theorem asarray_canonical {x64 : Bool} {l : Leaf} {s : List ℕ} {d : DType} (h : l.HasType x64 s d) :
    canonical x64 d = d := by
  rw [hasType_iff] at h
  cases l with
  | array a => cases h; exact canonical_canonical _ _
  | struct s d => cases h; exact canonical_canonical _ _
  | pyInt z =>
    simp only [asarray] at h
    split at h <;> split at h <;> first | (cases h; exact canonical_canonical _ _) | cases h
  | pyFloat x => cases h; exact canonical_canonical _ _
  | pyBool b => cases h; cases x64 <;> rfl
  | pyComplex _ _ => cases h; cases x64 <;> rfl
  | object n => cases h

mutual
theorem mapM_self {α : Type} {f : α → Except Err α} : ∀ (t : Tree α), (∀ a ∈ t.leaves, f a = .ok a) →
    t.mapM f = .ok t
  | .leaf a, h => by rw [Tree.mapM, h a (by simp [Tree.leaves])]; rfl
  | .node l cs, h => by
    rw [Tree.mapM, mapMs_self cs (by rw [Tree.leaves] at h; exact h)]; rfl
theorem mapMs_self {α : Type} {f : α → Except Err α} : ∀ (ts : List (Tree α)),
    (∀ a ∈ Tree.leavesL ts, f a = .ok a) → Tree.mapMs f ts = .ok ts
  | [], _ => rfl
  | t :: ts, h => by
    rw [Tree.leavesL] at h
    rw [Tree.mapMs, mapM_self t fun a ha => h a (List.mem_append_left _ ha),
      mapMs_self ts fun a ha => h a (List.mem_append_right _ ha)]
    rfl
end

/-- **C61.** Dummy values are a fixed point: filling a dummy tree again changes nothing. -/
theorem dummy_tree_idempotent {x64 : Bool} {t : Tree Leaf} {d : Tree Arr} (h : dummyTreeLike x64 t = .ok d) :
    dummyArrays x64 d = .ok d := by
  refine mapM_self d fun a ha => ?_
  obtain ⟨i, hi, rfl⟩ := List.getElem_of_mem ha
  have h2 := (mapM_ok t h).2
  have := h2.get (by rw [h2.length_eq]; exact hi) hi
  obtain ⟨h1, v, hv, hd⟩ := dummyArray_ok this
  simp only [List.get_eq_getElem] at h1 hv hd
  rw [dummyArray]
  simp only [asarray, asarray_canonical h1, bind, Except.bind, hv]
  rw [← hd]

/-- **C61.** The same for a tree of JAX arrays (whose data types are canonical), as the smoothers call it:
structure, shapes and data types are unchanged and every element is the least value of its type. -/
theorem dummy_arrays_preserves {x64 : Bool} {t d : Tree Arr} (h : dummyArrays x64 t = .ok d)
    (hc : ∀ a ∈ t.leaves, canonical x64 a.dtype = a.dtype) :
    d.skeleton = t.skeleton ∧
      List.Forall₂ (fun a b => b.shape = a.shape ∧ b.dtype = a.dtype ∧ b.data.length = b.shape.prod ∧
        ∀ v ∈ b.data, IsLeastOf b.dtype v) t.leaves d.leaves := by
  obtain ⟨h1, h2⟩ := mapM_ok t h
  refine ⟨h1, List.forall₂_iff_get.2 ⟨h2.length_eq, fun i hi hi' => ?_⟩⟩
  obtain ⟨hl, v, hv, hd⟩ := dummyArray_ok (h2.get hi hi')
  rw [hasType_iff, asarray, hc _ (List.get_mem _ _)] at hl
  have hl' := Except.ok.inj hl
  rw [Prod.mk.injEq] at hl'
  refine ⟨hl'.1.symm, hl'.2.symm, by rw [hd, List.length_replicate], fun w hw => ?_⟩
  rw [hd] at hw
  rw [List.eq_of_mem_replicate hw]
  exact minVal_isLeast hv

/-- A tree with an array, a Python number, a description and an empty node meets the hypotheses. -/
example : ∃ d, dummyTreeLike false (.node "dict" [.leaf (.array ⟨[2, 2], .float .f32, []⟩), .leaf (.pyInt 3),
    .node "None" [], .leaf (.struct [4] (.uint 8))]) = .ok d := by
  refine (dummy_tree_ok_iff _ _).2 fun l hl => ?_
  simp only [Tree.leaves, Tree.leavesL, List.append_nil, List.nil_append, List.singleton_append,
    List.mem_cons, List.not_mem_nil, or_false] at hl
  rcases hl with rfl | rfl | rfl
  · exact ⟨_, _, hasType_iff.2 rfl, trivial⟩
  · exact ⟨[], .int 31, .pyInt32 3 (by norm_num), trivial⟩
  · exact ⟨_, _, hasType_iff.2 rfl, trivial⟩

/-! ## What this means for the offline smoother -/

/-- **C61, consequence.** `cuthbert.smoother` raises `ValueError` for every smoother and every list of
filter states as soon as the first retained input has an array of an unsupported data type, for instance
a typed PRNG key or a complex number, although filters accept such inputs. -/
theorem smoother_rejects_unsupported_inputs {K S Q : Type} (rng : Prng K) (x64 : Bool)
    (inputsOf : S → Tree Arr) (s : SmootherObj (Tree Arr) K S Q) (fs : List S) (inp : Tree Arr)
    (inputs : List (Tree Arr)) (parallel : Bool) (key : Option K) (hlen : inputs.length + 2 = fs.length)
    (hbad : ∃ a ∈ inp.leaves, ∃ n, a.dtype = .other n) :
    (smoother rng inputsOf (dummyArrays x64) s fs (some (inp :: inputs)) parallel key).result =
      .error .valueError := by
  have hd : dummyArrays x64 inp = .error .valueError := by
    have herr : ∀ a : Arr, (∃ n, a.dtype = .other n) → dummyArray x64 (.array a) = .error .valueError := by
      rintro ⟨s, d, v⟩ ⟨n, rfl : d = _⟩
      cases x64 <;> rfl
    have hval : ∀ (a : Arr) e, dummyArray x64 (.array a) = .error e → e = .valueError := by
      rintro ⟨s, d, v⟩ e h
      simp only [dummyArray, asarray, bind, Except.bind] at h
      cases hc : canonical x64 d <;> simp only [hc, minVal] at h <;> cases h
      rfl
    obtain ⟨a, ha, hn⟩ := hbad
    cases h : dummyArrays x64 inp with
    | ok d =>
      obtain ⟨b, hb⟩ := forall₂_right (mapM_ok inp h).2 a ha
      rw [herr a hn] at hb; cases hb
    | error e =>
      obtain ⟨_, l, _, _, _, he⟩ := (mapM_error_iff inp e).1 h
      rw [hval l e he]
  obtain ⟨f, fs', rfl⟩ : ∃ f fs', fs = f :: fs' := by
    cases fs with
    | nil => simp at hlen
    | cons f fs' => exact ⟨f, fs', rfl⟩
  have hk : ∃ k, (prepareKeys rng key (f :: fs').length)[0]? = some k := by
    cases key with
    | none => exact ⟨none, by simp [prepareKeys]⟩
    | some k =>
      refine ⟨some ((rng.split k (f :: fs').length)[0]'(by rw [rng.length_split]; simp)), ?_⟩
      simp [prepareKeys, rng.length_split]
  obtain ⟨k0, hk⟩ := hk
  have hlast : ∃ z, (f :: fs').getLast? = some z := ⟨_, List.getLast?_eq_getLast_of_ne_nil (by simp)⟩
  obtain ⟨z, hz⟩ := hlast
  simp only [smoother, Option.getD_some]
  rw [if_neg (by simp at hlen ⊢; omega), if_neg (by simp at hlen ⊢; omega)]
  simp only [hz, hk, List.getElem?_cons_zero, hd]

/-- A typed PRNG key among the inputs meets the hypothesis. -/
example : ∃ a ∈ (Tree.node "dict" [.leaf (⟨[], .other "key<fry>", [.opaque 0]⟩ : Arr)]).leaves, ∃ n,
    a.dtype = .other n := ⟨⟨[], .other "key<fry>", [.opaque 0]⟩, by simp [Tree.leaves, Tree.leavesL], _, rfl⟩

end Utils
end Cuthbert
