import Verif.Lemmas.Interface

/-!
# Running three filters or smoothers side by side

If a relation between the states of three filters holds for the prepared states and is preserved by the
combinations, it holds for the states that `filter` returns, in both modes; likewise for smoothers.
-/

namespace Cuthbert
open Spec

variable {Inp K S Q α β : Type*}

/-- A map of the states that commutes with the three functions of a filter commutes with `filter`. -/
theorem filter_homs {S' : Type*} (rng : Prng K) (f : FilterObj Inp K S) (f' : FilterObj Inp K S') (q : S → S')
    (h0 : ∀ u k, q (f.initPrepare u k) = f'.initPrepare u k)
    (h1 : ∀ u k, q (f.filterPrepare u k) = f'.filterPrepare u k)
    (h2 : ∀ a b, q (f.filterCombine a b) = f'.filterCombine (q a) (q b)) (u₀ : Inp) (us : List Inp)
    (parallel : Bool) (key : Option K) :
    (filter rng f' (u₀ :: us) parallel key).result =
      (filter rng f (u₀ :: us) parallel key).result.map (List.map q) := by
  have he : filterElems rng f' us key = (filterElems rng f us key).map q := by
    simp only [filterElems, List.map_zipWith, h1]
  cases parallel with
  | false =>
    rw [filter_sequential_eq, filter_sequential_eq, he, ← h0]
    exact congrArg Except.ok (runningFold_map f.filterCombine f'.filterCombine q (fun _ => True)
      (fun _ _ _ _ => trivial) (fun a b _ _ => h2 a b) _ _ (fun _ _ => trivial)).symm
  | true =>
    rw [filter_parallel_eq, filter_parallel_eq, he, ← h0, ← List.map_cons]
    exact congrArg Except.ok (associativeScan_map f.filterCombine f'.filterCombine q (fun _ => True)
      (fun _ _ _ _ => trivial) (fun a b _ _ => h2 a b) _ (fun _ _ => trivial)).1.symm

/-- A property of the prepared states that the combination preserves holds for all states. -/
theorem filter_all (rng : Prng K) (f : FilterObj Inp K S) (P : S → Prop) (h0 : ∀ u k, P (f.initPrepare u k))
    (h1 : ∀ u k, P (f.filterPrepare u k)) (h2 : ∀ a b, P a → P b → P (f.filterCombine a b)) (u₀ : Inp)
    (us : List Inp) (parallel : Bool) (key : Option K) :
    ∃ states, (filter rng f (u₀ :: us) parallel key).result = .ok states ∧ states.length = us.length + 1 ∧
      ∀ s ∈ states, P s := by
  have hall : ∀ x ∈ f.initPrepare u₀ (keyAt rng key (us.length + 1) 0) :: filterElems rng f us key, P x := by
    intro x hx
    rcases List.mem_cons.mp hx with rfl | hx
    · exact h0 _ _
    · obtain ⟨t, ht⟩ := List.getElem?_of_mem hx
      rw [filterElems_get] at ht
      cases hu : us[t]? with
      | none => rw [hu] at ht; cases ht
      | some u =>
        rw [hu, Option.map_some, Option.some.injEq] at ht
        exact ht ▸ h1 _ _
  cases parallel with
  | false =>
    exact ⟨_, filter_sequential_eq .., by rw [runningFold_length, filterElems_length],
      runningFold_mem _ P h2 _ _ hall⟩
  | true =>
    exact ⟨_, filter_parallel_eq .., by rw [associativeScan_length, List.length_cons, filterElems_length],
      (associativeScan_map f.filterCombine f.filterCombine id P h2 (fun _ _ _ _ => rfl) _ hall).2⟩

/-- Three filters side by side. -/
def FilterObj.triple (f₁ f₂ f₃ : FilterObj Inp K S) : FilterObj Inp K (S × S × S) where
  initPrepare u k := (f₁.initPrepare u k, f₂.initPrepare u k, f₃.initPrepare u k)
  filterPrepare u k := (f₁.filterPrepare u k, f₂.filterPrepare u k, f₃.filterPrepare u k)
  filterCombine a b := (f₁.filterCombine a.1 b.1, f₂.filterCombine a.2.1 b.2.1, f₃.filterCombine a.2.2 b.2.2)
  associative := true

theorem filter_triple (rng : Prng K) (f₁ f₂ f₃ : FilterObj Inp K S) (R : S → S → S → Prop)
    (h0 : ∀ u k, R (f₁.initPrepare u k) (f₂.initPrepare u k) (f₃.initPrepare u k))
    (h1 : ∀ u k, R (f₁.filterPrepare u k) (f₂.filterPrepare u k) (f₃.filterPrepare u k))
    (h2 : ∀ a₁ a₂ a₃ b₁ b₂ b₃, R a₁ a₂ a₃ → R b₁ b₂ b₃ →
      R (f₁.filterCombine a₁ b₁) (f₂.filterCombine a₂ b₂) (f₃.filterCombine a₃ b₃)) (u₀ : Inp)
    (us : List Inp) (parallel : Bool) (key : Option K) :
    ∃ ts : List (S × S × S), ts.length = us.length + 1 ∧
      (filter rng f₁ (u₀ :: us) parallel key).result = .ok (ts.map (·.1)) ∧
      (filter rng f₂ (u₀ :: us) parallel key).result = .ok (ts.map (·.2.1)) ∧
      (filter rng f₃ (u₀ :: us) parallel key).result = .ok (ts.map (·.2.2)) ∧
      ∀ x ∈ ts, R x.1 x.2.1 x.2.2 := by
  obtain ⟨ts, h, hl, hR⟩ := filter_all rng (f₁.triple f₂ f₃) (fun x => R x.1 x.2.1 x.2.2) h0 h1
    (fun a b ha hb => h2 _ _ _ _ _ _ ha hb) u₀ us parallel key
  refine ⟨ts, hl, ?_, ?_, ?_, hR⟩
  · rw [filter_homs rng (f₁.triple f₂ f₃) f₁ (·.1) (fun _ _ => rfl) (fun _ _ => rfl) (fun _ _ => rfl), h]; rfl
  · rw [filter_homs rng (f₁.triple f₂ f₃) f₂ (·.2.1) (fun _ _ => rfl) (fun _ _ => rfl) (fun _ _ => rfl), h]; rfl
  · rw [filter_homs rng (f₁.triple f₂ f₃) f₃ (·.2.2) (fun _ _ => rfl) (fun _ _ => rfl) (fun _ _ => rfl), h]; rfl

theorem backFold_hom {V : Type*} (op : Q → Q → Q) (op' : V → V → V) (q : Q → V)
    (hq : ∀ a b, q (op a b) = op' (q a) (q b)) (final : Q) : ∀ ps : List Q,
    (backFold op final ps).map q = backFold op' (q final) (ps.map q)
  | [] => rfl
  | p :: ps => by
    have ih := backFold_hom op op' q hq final ps
    obtain ⟨r, hr, e⟩ := backFold_cons op final p ps
    obtain ⟨r', hr', e'⟩ := backFold_cons op' (q final) (q p) (ps.map q)
    rw [← ih, List.getElem?_map, hr, Option.map_some, Option.some.injEq] at hr'
    rw [e, List.map_cons, List.map_cons, e', ← hr', hq, ih]

theorem backFold_mem (op : Q → Q → Q) (P : Q → Prop) (hcl : ∀ a b, P a → P b → P (op a b)) (final : Q)
    (hf : P final) : ∀ ps : List Q, (∀ p ∈ ps, P p) → ∀ y ∈ backFold op final ps, P y
  | [], _, y, hy => by
    rw [backFold, List.mem_singleton] at hy
    exact hy ▸ hf
  | p :: ps, h, y, hy => by
    have ih := backFold_mem op P hcl final hf ps fun p hp => h p (List.mem_cons_of_mem _ hp)
    obtain ⟨r, hr, e⟩ := backFold_cons op final p ps
    rw [e, List.mem_cons] at hy
    rcases hy with rfl | hy
    · exact hcl _ _ (h _ (by simp)) (ih _ (List.mem_of_getElem? hr))
    · exact ih _ hy

/-- Maps of filter and smoother states that commute with the three functions of a smoother commute with
`smoother`. -/
theorem smootherCore_map {S' Q' : Type*} (rng : Prng K) (dummy : Inp → Except Err Inp) (s : SmootherObj Inp K S Q)
    (s' : SmootherObj Inp K S' Q') (r : S → S') (q : Q → Q')
    (h0 : ∀ x u k, q (s.convert x u k) = s'.convert (r x) u k)
    (h1 : ∀ x u k, q (s.smootherPrepare x u k) = s'.smootherPrepare (r x) u k)
    (h2 : ∀ a b, q (s.smootherCombine a b) = s'.smootherCombine (q a) (q b)) (fs : List S) (inputs : List Inp)
    (parallel : Bool) (key : Option K) :
    smootherCore rng dummy s' (fs.map r) inputs parallel key =
      (smootherCore rng dummy s fs inputs parallel key).map (List.map q) := by
  have he : smootherElems rng s' (fs.map r) inputs key = (smootherElems rng s fs inputs key).map q := by
    simp only [smootherElems, List.map_zipWith, h1, List.length_map, ← List.map_dropLast]
    rw [List.zip_map_left, List.zipWith_map_left]
    rfl
  simp only [smootherCore, List.getLast?_map, List.length_map]
  cases fs.getLast? with
  | none => rfl
  | some x =>
    cases inputs[0]? with
    | none => rfl
    | some u =>
      simp only [Option.map_some]
      cases dummy u with
      | error e => rfl
      | ok d =>
        simp only [Except.map, Except.ok.injEq]
        cases parallel with
        | false =>
          simp only [Bool.false_eq_true, if_false]
          rw [he, ← h0, ← backFold_hom s.smootherCombine s'.smootherCombine q h2]
        | true =>
          simp only [if_true, associativeScanRev, List.map_reverse]
          rw [he, ← h0, ← List.map_singleton, ← List.map_append, ← List.map_reverse,
            (associativeScan_map (fun c n => s.smootherCombine n c) (fun c n => s'.smootherCombine n c) q
              (fun _ => True) (fun _ _ _ _ => trivial) (fun a b _ _ => h2 b a) _ (fun _ _ => trivial)).1]

/-- A property that holds for what the smoother prepares from filter states with the property `P`, and that the
combination preserves, holds for all states. -/
theorem smootherCore_all (rng : Prng K) (dummy : Inp → Except Err Inp) (s : SmootherObj Inp K S Q) (P : S → Prop)
    (P' : Q → Prop) (h0 : ∀ x u k, P x → P' (s.convert x u k)) (h1 : ∀ x u k, P x → P' (s.smootherPrepare x u k))
    (h2 : ∀ a b, P' a → P' b → P' (s.smootherCombine a b)) (fs : List S) (hfs : ∀ x ∈ fs, P x) (inputs : List Inp)
    (hlen : inputs.length + 1 = fs.length) (parallel : Bool) (key : Option K) {states : List Q}
    (h : smootherCore rng dummy s fs inputs parallel key = .ok states) : ∀ y ∈ states, P' y := by
  have hall : ∀ y ∈ smootherElems rng s fs inputs key, P' y := by
    intro y hy
    obtain ⟨t, ht⟩ := List.getElem?_of_mem hy
    have htl : t < inputs.length := by
      have := (List.getElem?_eq_some_iff.mp ht).1
      rwa [smootherElems_length _ _ _ _ _ hlen] at this
    rw [smootherElems_get rng s fs inputs key hlen t fs[t] inputs[t] (List.getElem?_eq_getElem (by omega))
      (List.getElem?_eq_getElem htl), Option.some.injEq] at ht
    exact ht ▸ h1 _ _ _ (hfs _ (List.getElem_mem _))
  rw [smootherCore] at h
  cases hx : fs.getLast? with
  | none => rw [hx] at h; cases h
  | some x =>
    rw [hx] at h
    cases hu : inputs[0]? with
    | none => rw [hu] at h; cases h
    | some u =>
      rw [hu] at h
      simp only at h
      cases hd : dummy u with
      | error e => rw [hd] at h; cases h
      | ok d =>
        rw [hd] at h
        have hfin : P' (s.convert x d (keyAt rng key fs.length 0)) := h0 _ _ _ (hfs _ (List.mem_of_getLast? hx))
        cases parallel with
        | false =>
          simp only [Bool.false_eq_true, if_false, Except.ok.injEq] at h
          subst h
          exact backFold_mem _ P' h2 _ hfin _ hall
        | true =>
          simp only [if_true, Except.ok.injEq, associativeScanRev] at h
          subst h
          intro y hy
          rw [List.mem_reverse] at hy
          refine (associativeScan_map (fun c n => s.smootherCombine n c) (fun c n => s.smootherCombine n c) id P'
            (fun a b ha hb => h2 b a hb ha) (fun _ _ _ _ => rfl) _ ?_).2 y hy
          intro z hz
          rw [List.mem_reverse, List.mem_append, List.mem_singleton] at hz
          rcases hz with hz | rfl
          · exact hall _ hz
          · exact hfin

/-- Three smoothers side by side. -/
def SmootherObj.triple (s₁ s₂ s₃ : SmootherObj Inp K S Q) : SmootherObj Inp K (S × S × S) (Q × Q × Q) where
  convert x u k := (s₁.convert x.1 u k, s₂.convert x.2.1 u k, s₃.convert x.2.2 u k)
  smootherPrepare x u k := (s₁.smootherPrepare x.1 u k, s₂.smootherPrepare x.2.1 u k, s₃.smootherPrepare x.2.2 u k)
  smootherCombine a b := (s₁.smootherCombine a.1 b.1, s₂.smootherCombine a.2.1 b.2.1, s₃.smootherCombine a.2.2 b.2.2)
  associative := true

theorem smoother_triple (rng : Prng K) (inputsOf : S → Inp) (dummy : Inp → Except Err Inp)
    (s₁ s₂ s₃ : SmootherObj Inp K S Q) (R : S → S → S → Prop) (R' : Q → Q → Q → Prop)
    (h0 : ∀ x₁ x₂ x₃ u k, R x₁ x₂ x₃ → R' (s₁.convert x₁ u k) (s₂.convert x₂ u k) (s₃.convert x₃ u k))
    (h1 : ∀ x₁ x₂ x₃ u k, R x₁ x₂ x₃ →
      R' (s₁.smootherPrepare x₁ u k) (s₂.smootherPrepare x₂ u k) (s₃.smootherPrepare x₃ u k))
    (h2 : ∀ a₁ a₂ a₃ b₁ b₂ b₃, R' a₁ a₂ a₃ → R' b₁ b₂ b₃ →
      R' (s₁.smootherCombine a₁ b₁) (s₂.smootherCombine a₂ b₂) (s₃.smootherCombine a₃ b₃))
    (fs : List (S × S × S)) (hfs : ∀ x ∈ fs, R x.1 x.2.1 x.2.2) (inputs : List Inp)
    (hlen : inputs.length + 1 = fs.length) (hne : inputs ≠ []) (hd : ∀ u, ∃ d, dummy u = .ok d) (parallel : Bool)
    (key : Option K) :
    ∃ ts : List (Q × Q × Q), ts.length = fs.length ∧
      (smoother rng inputsOf dummy s₁ (fs.map (·.1)) (some inputs) parallel key).result = .ok (ts.map (·.1)) ∧
      (smoother rng inputsOf dummy s₂ (fs.map (·.2.1)) (some inputs) parallel key).result = .ok (ts.map (·.2.1)) ∧
      (smoother rng inputsOf dummy s₃ (fs.map (·.2.2)) (some inputs) parallel key).result = .ok (ts.map (·.2.2)) ∧
      ∀ x ∈ ts, R' x.1 x.2.1 x.2.2 := by
  obtain ⟨ts, hts, hl⟩ : ∃ ts, smootherCore rng dummy (s₁.triple s₂ s₃) fs inputs parallel key = .ok ts ∧
      ts.length = fs.length := by
    have hfne : fs ≠ [] := by intro e; subst e; simp at hlen
    obtain ⟨u, us, rfl⟩ := List.exists_cons_of_ne_nil hne
    obtain ⟨d, hd⟩ := hd u
    have hsl := smootherElems_length rng (s₁.triple s₂ s₃) fs (u :: us) key hlen
    simp only [smootherCore, List.getLast?_eq_some_getLast hfne, List.getElem?_cons_zero, hd]
    refine ⟨_, rfl, ?_⟩
    cases parallel with
    | false =>
      simp only [Bool.false_eq_true, if_false]
      rw [backFold_length, hsl]; omega
    | true =>
      simp only [if_true, associativeScanRev, List.length_reverse]
      rw [associativeScan_length, List.length_reverse, List.length_append, hsl, List.length_singleton]; omega
  refine ⟨ts, hl, ?_, ?_, ?_, ?_⟩
  · rw [smoother_core_eq _ _ _ _ _ _ (by simpa using hlen),
      smootherCore_map rng dummy (s₁.triple s₂ s₃) s₁ (·.1) (·.1) (fun _ _ _ => rfl) (fun _ _ _ => rfl) (fun _ _ => rfl), hts]
    rfl
  · rw [smoother_core_eq _ _ _ _ _ _ (by simpa using hlen),
      smootherCore_map rng dummy (s₁.triple s₂ s₃) s₂ (·.2.1) (·.2.1) (fun _ _ _ => rfl) (fun _ _ _ => rfl) (fun _ _ => rfl), hts]
    rfl
  · rw [smoother_core_eq _ _ _ _ _ _ (by simpa using hlen),
      smootherCore_map rng dummy (s₁.triple s₂ s₃) s₃ (·.2.2) (·.2.2) (fun _ _ _ => rfl) (fun _ _ _ => rfl) (fun _ _ => rfl), hts]
    rfl
  · exact smootherCore_all rng dummy (s₁.triple s₂ s₃) (fun x => R x.1 x.2.1 x.2.2) (fun x => R' x.1 x.2.1 x.2.2)
      (fun x u k hx => h0 _ _ _ u k hx) (fun x u k hx => h1 _ _ _ u k hx) (fun a b ha hb => h2 _ _ _ _ _ _ ha hb)
      fs hfs inputs hlen parallel key hts

end Cuthbert
