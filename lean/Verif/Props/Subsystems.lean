import Verif.Props.Grid
import Verif.Spec.Product

/-!
# Independent subsystems in the Kalman filter and smoother (C104)
-/

namespace Cuthbert.Kalman
open MeasureTheory Matrix Cuthbert Cuthbert.Spec
open scoped ENNReal

noncomputable section

variable {nx ny nx' ny' N M : ℕ} {Inp Inp' InpJ K K' KJ : Type}
  {e : Fin nx ⊕ Fin nx' ≃ Fin N} {o : Fin ny ⊕ Fin ny' ≃ Fin M}

/-! ## Laws -/

theorem gauss_reindex {ι ο κ : Type*} [Fintype ι] [Fintype ο] [Fintype κ] (e : ο ≃ ι) (m : ι → ℝ) (L : Matrix ι κ ℝ)
    {f : (ο → ℝ) → ℝ≥0∞} (hf : Measurable f) :
    ∫⁻ x, f (x ∘ e) ∂gauss m L = ∫⁻ x, f x ∂gauss (m ∘ e) (L.submatrix e id) := by
  have hm : Measurable fun x : ι → ℝ => x ∘ e := measurable_pi_lambda _ fun i => measurable_pi_apply _
  rw [lintegral_gauss _ _ (f := fun x => f (x ∘ e)) (hf.comp hm), lintegral_gauss _ _ hf]
  rfl

/-- Independent Gaussian vectors, stacked. -/
theorem gauss_pair {ι ο κ κ' : Type*} [Fintype ι] [Fintype ο] [Fintype κ] [Fintype κ'] (m : ι → ℝ) (m' : ο → ℝ)
    (L : Matrix ι κ ℝ) (L' : Matrix ο κ' ℝ) {f : (ι ⊕ ο → ℝ) → ℝ≥0∞} (hf : Measurable f) :
    ∫⁻ x, f x ∂gauss (Sum.elim m m') (fromBlocks L 0 0 L') =
      ∫⁻ x, ∫⁻ x', f (Sum.elim x x') ∂gauss m' L' ∂gauss m L := by
  have h1 : ∀ x : ι → ℝ, Measurable fun x' : ο → ℝ => f (Sum.elim x x') := fun x =>
    hf.comp (measurable_sumElim.comp (measurable_const.prodMk measurable_id))
  have h2 : Measurable fun x : ι → ℝ => ∫⁻ x', f (Sum.elim x x') ∂gauss m' L' :=
    Measurable.lintegral_prod_right' (f := fun p : (ι → ℝ) × (ο → ℝ) => f (Sum.elim p.1 p.2)) (hf.comp measurable_sumElim)
  rw [lintegral_gauss _ _ hf, lintegral_stdNormal_sum
    (f := fun ε => f (Sum.elim m m' + fromBlocks L 0 0 L' *ᵥ ε)) (hf.comp (measurable_affine _ _)), lintegral_gauss _ _ h2]
  refine lintegral_congr fun ε => ?_
  rw [lintegral_gauss _ _ (h1 _)]
  refine lintegral_congr fun η => ?_
  rw [fromBlocks_affine]
  simp

theorem gram_fromBlocks {ι ο κ κ' : Type*} [Fintype ι] [Fintype ο] [Fintype κ] [Fintype κ']
    (L : Matrix ι κ ℝ) (L' : Matrix ο κ' ℝ) :
    fromBlocks L 0 0 L' * (fromBlocks L 0 0 L')ᵀ = fromBlocks (L * Lᵀ) 0 0 (L' * L'ᵀ) := by
  rw [fromBlocks_transpose, fromBlocks_multiply]
  simp

theorem gram_submatrix {ι ο κ : Type*} [Fintype ι] [Fintype ο] [Fintype κ] (e : ο → ι) (L : Matrix ι κ ℝ) :
    L.submatrix e id * (L.submatrix e id)ᵀ = (L * Lᵀ).submatrix e e := by
  rw [transpose_submatrix]
  rfl

/-- The law of a vector that consists of two independent Gaussian parts. -/
theorem gauss_join {κ κ' κJ : Type*} [Fintype κ] [Fintype κ'] [Fintype κJ] {m : Fin nx → ℝ} {m' : Fin nx' → ℝ}
    {mJ : Fin N → ℝ} {L : Matrix (Fin nx) κ ℝ} {L' : Matrix (Fin nx') κ' ℝ} {LJ : Matrix (Fin N) κJ ℝ}
    (hm : mJ ∘ e = Sum.elim m m') (hL : (LJ * LJᵀ).submatrix e e = fromBlocks (L * Lᵀ) 0 0 (L' * L'ᵀ))
    {f : (Fin nx ⊕ Fin nx' → ℝ) → ℝ≥0∞} (hf : Measurable f) :
    ∫⁻ x, f (x ∘ e) ∂gauss mJ LJ = ∫⁻ x, ∫⁻ x', f (Sum.elim x x') ∂gauss m' L' ∂gauss m L := by
  rw [gauss_reindex e mJ LJ hf, ← gauss_pair m m' L L' hf, hm,
    gauss_eq_of_gram (Sum.elim m m') (LJ.submatrix e id) (fromBlocks L 0 0 L')]
  rw [gram_submatrix, hL, gram_fromBlocks]

/-- Components observed in the two parts. -/
def obsPair {y : Fin ny → Option ℝ} {y' : Fin ny' → Option ℝ} {yJ : Fin M → Option ℝ} (h : yJ ∘ o = Sum.elim y y') :
    Obs y ⊕ Obs y' ≃ Obs yJ :=
  Equiv.ofBijective (Sum.elim
    (fun i => ⟨o (.inl i.1), by have := congrFun h (.inl i.1); simp only [Function.comp, Sum.elim_inl] at this; rw [this]; exact i.2⟩)
    fun i => ⟨o (.inr i.1), by have := congrFun h (.inr i.1); simp only [Function.comp, Sum.elim_inr] at this; rw [this]; exact i.2⟩) <| by
    constructor
    · rintro (⟨i, hi⟩ | ⟨i, hi⟩) (⟨k, hk⟩ | ⟨k, hk⟩) he <;> simp at he <;> simp [he]
    · rintro ⟨i, hi⟩
      obtain ⟨a, rfl⟩ := o.surjective i
      rcases a with a | a
      · have := congrFun h (.inl a)
        simp only [Function.comp, Sum.elim_inl] at this
        exact ⟨.inl ⟨a, by rw [← this]; exact hi⟩, rfl⟩
      · have := congrFun h (.inr a)
        simp only [Function.comp, Sum.elim_inr] at this
        exact ⟨.inr ⟨a, by rw [← this]; exact hi⟩, rfl⟩

variable {s : Step nx ny} {s' : Step nx' ny'} {j : Step N M}

theorem _root_.Cuthbert.Spec.StepPair.R_eq (h : StepPair e o s s' j) :
    j.R.submatrix (obsPair h.y) (obsPair h.y) = fromBlocks s.R 0 0 s'.R := by
  have key : ∀ a b, (j.cholR * j.cholRᵀ) (o a) (o b) =
      fromBlocks (s.cholR * s.cholRᵀ) 0 0 (s'.cholR * s'.cholRᵀ) a b := fun a b => congrFun (congrFun h.R a) b
  ext a b
  rcases a with a | a <;> rcases b with b | b
  · exact key (.inl a.1) (.inl b.1)
  · exact key (.inl a.1) (.inr b.1)
  · exact key (.inr a.1) (.inl b.1)
  · exact key (.inr a.1) (.inr b.1)

theorem _root_.Cuthbert.Spec.StepPair.R_det (h : StepPair e o s s' j) : j.R.det = s.R.det * s'.R.det := by
  rw [← det_submatrix_equiv_self (obsPair h.y), h.R_eq, det_fromBlocks_zero₂₁]

theorem mulVec_comp {α β : Type*} [Fintype α] [Fintype β] {γ δ : Type*} (A : Matrix γ α ℝ) (x : α → ℝ) (e : β ≃ α) (o : δ → γ) :
    (A *ᵥ x) ∘ o = A.submatrix o e *ᵥ (x ∘ e) := by
  funext i
  exact (Equiv.sum_comp e fun k => A (o i) k * x k).symm

theorem sum_eta {α β : Type*} (z : α ⊕ β → ℝ) : z = Sum.elim (z ∘ Sum.inl) (z ∘ Sum.inr) := by
  funext i; cases i <;> rfl

theorem _root_.Cuthbert.Spec.StepPair.lik_eq (h : StepPair e o s s' j) (hR : s.R.det ≠ 0) (hR' : s'.R.det ≠ 0)
    (x : Fin N → ℝ) : j.lik x = s.lik (x ∘ e ∘ Sum.inl) * s'.lik (x ∘ e ∘ Sum.inr) := by
  rw [Step.lik, Step.lik, Step.lik, ← ENNReal.ofReal_mul (Real.exp_nonneg _), ← Real.exp_add,
    ← gaussLogDensity_sum _ _ _ _ _ _ hR hR', ← gaussLogDensity_reindex (obsPair h.y), h.R_eq]
  have hy : obsY j.y ∘ obsPair h.y = Sum.elim (obsY s.y) (obsY s'.y) := by
    funext i
    rcases i with i | i
    · exact congrArg (·.getD 0) (congrFun h.y (.inl i.1))
    · exact congrArg (·.getD 0) (congrFun h.y (.inr i.1))
  have hx : (j.H *ᵥ x + j.d) ∘ o = Sum.elim (s.H *ᵥ (x ∘ e ∘ Sum.inl) + s.d) (s'.H *ᵥ (x ∘ e ∘ Sum.inr) + s'.d) := by
    have e1 : (j.H *ᵥ x + j.d) ∘ o = (j.H *ᵥ x) ∘ o + j.d ∘ o := rfl
    rw [e1, h.d, mulVec_comp j.H x e o, h.H, sum_eta (x ∘ e), fromBlocks_mulVec]
    funext i
    rcases i with i | i <;> simp [Function.comp_def]
  have hmean : (obsH j.y j.H *ᵥ x + obsV j.y j.d) ∘ obsPair h.y =
      Sum.elim (obsH s.y s.H *ᵥ (x ∘ e ∘ Sum.inl) + obsV s.y s.d) (obsH s'.y s'.H *ᵥ (x ∘ e ∘ Sum.inr) + obsV s'.y s'.d) := by
    funext i
    rcases i with i | i
    · exact congrFun hx (.inl i.1)
    · exact congrFun hx (.inr i.1)
  rw [hy, hmean]

theorem _root_.Cuthbert.Spec.StepPair.mean (h : StepPair e o s s' j) (x : Fin N → ℝ) :
    (j.F *ᵥ x + j.c) ∘ e = Sum.elim (s.F *ᵥ (x ∘ e ∘ Sum.inl) + s.c) (s'.F *ᵥ (x ∘ e ∘ Sum.inr) + s'.c) := by
  have e1 : (j.F *ᵥ x + j.c) ∘ e = (j.F *ᵥ x) ∘ e + j.c ∘ e := rfl
  rw [e1, h.c, mulVec_comp j.F x e e, h.F, sum_eta (x ∘ e), fromBlocks_mulVec]
  funext i
  rcases i with i | i <;> simp [Function.comp_def]

/-- Path expectations of the joint model. -/
theorem pathExp_pair : ∀ (ss : List (Step nx ny)) (ss' : List (Step nx' ny')) (js : List (Step N M))
    (_ : ss.length = js.length) (_ : ss'.length = js.length)
    (_ : ∀ (t : ℕ) s s' j, ss[t]? = some s → ss'[t]? = some s' → js[t]? = some j → StepPair e o s s' j)
    (_ : ∀ s ∈ ss, s.R.det ≠ 0) (_ : ∀ s ∈ ss', s.R.det ≠ 0)
    (f : (ℕ → Fin nx → ℝ) → ℝ≥0∞) (f' : (ℕ → Fin nx' → ℝ) → ℝ≥0∞) (_ : Measurable f) (_ : Measurable f')
    (x : Fin N → ℝ),
    pathExp js (fun p => f (fun t => p t ∘ e ∘ Sum.inl) * f' fun t => p t ∘ e ∘ Sum.inr) x =
      pathExp ss f (x ∘ e ∘ Sum.inl) * pathExp ss' f' (x ∘ e ∘ Sum.inr)
  | [], [], [], _, _, _, _, _, f, f', _, _, x => rfl
  | [], _ :: _, _, hl, hl', _, _, _, _, _, _, _, _ => by rw [← hl] at hl'; cases hl'
  | _ :: _, [], _, hl, hl', _, _, _, _, _, _, _, _ => by rw [← hl'] at hl; cases hl
  | s :: ss, s' :: ss', j :: js, hl, hl', h, hR, hR', f, f', hf, hf', x => by
    have h0 := h 0 s s' j rfl rfl rfl
    have hc : Measurable fun p : ℕ → Fin nx → ℝ => f (pathCons (x ∘ e ∘ Sum.inl) p) :=
      hf.comp (measurable_pathCons measurable_const measurable_id)
    have hc' : Measurable fun p : ℕ → Fin nx' → ℝ => f' (pathCons (x ∘ e ∘ Sum.inr) p) :=
      hf'.comp (measurable_pathCons measurable_const measurable_id)
    have ih := pathExp_pair ss ss' js (by simpa using hl) (by simpa using hl')
      (fun t a b c ha hb hc => h (t + 1) a b c ha hb hc) (fun a ha => hR a (List.mem_cons_of_mem _ ha))
      (fun a ha => hR' a (List.mem_cons_of_mem _ ha)) _ _ hc hc'
    have hA : Measurable fun x' => s.lik x' * pathExp ss (fun p => f (pathCons (x ∘ e ∘ Sum.inl) p)) x' :=
      s.measurable_lik.mul (measurable_pathExp' _ hc)
    have hB : Measurable fun x' => s'.lik x' * pathExp ss' (fun p => f' (pathCons (x ∘ e ∘ Sum.inr) p)) x' :=
      s'.measurable_lik.mul (measurable_pathExp' _ hc')
    have hl1 : Measurable fun z : Fin nx ⊕ Fin nx' → ℝ => z ∘ Sum.inl := measurable_pi_lambda _ fun i => measurable_pi_apply _
    have hl2 : Measurable fun z : Fin nx ⊕ Fin nx' → ℝ => z ∘ Sum.inr := measurable_pi_lambda _ fun i => measurable_pi_apply _
    have key := gauss_join (L := s.cholQ) (L' := s'.cholQ) (h0.mean x) h0.Q
      (f := fun z => (s.lik (z ∘ Sum.inl) * pathExp ss (fun p => f (pathCons (x ∘ e ∘ Sum.inl) p)) (z ∘ Sum.inl)) *
        (s'.lik (z ∘ Sum.inr) * pathExp ss' (fun p => f' (pathCons (x ∘ e ∘ Sum.inr) p)) (z ∘ Sum.inr)))
      ((hA.comp hl1).mul (hB.comp hl2))
    simp only [pathExp]
    refine Eq.trans (lintegral_congr fun x' => ?_) (key.trans ?_)
    · have e1 : (fun p : ℕ → Fin N → ℝ => f (fun t => pathCons x p t ∘ e ∘ Sum.inl) * f' fun t => pathCons x p t ∘ e ∘ Sum.inr) =
          fun p => f (pathCons (x ∘ e ∘ Sum.inl) fun t => p t ∘ e ∘ Sum.inl) *
            f' (pathCons (x ∘ e ∘ Sum.inr) fun t => p t ∘ e ∘ Sum.inr) := by
        funext p
        congr 2 <;> funext t <;> cases t <;> rfl
      rw [e1, ih x', h0.lik_eq (hR s (List.mem_cons_self ..)) (hR' s' (List.mem_cons_self ..))]
      simp only [Function.comp_assoc]
      ring
    · simp only [Sum.elim_comp_inl, Sum.elim_comp_inr]
      rw [← lintegral_mul_const _ hA]
      refine lintegral_congr fun z => ?_
      rw [lintegral_const_mul _ hB]

/-! ## Filter and smoother -/

/-- At each step the callbacks `cbJ` describe the models of `cb` and `cb'` side by side. -/
structure SideBySide (e : Fin nx ⊕ Fin nx' ≃ Fin N) (o : Fin ny ⊕ Fin ny' ≃ Fin M) (cb : Callbacks nx ny Inp)
    (cb' : Callbacks nx' ny' Inp') (cbJ : Callbacks N M InpJ) (u₀ : Inp) (us : List Inp) (u₀' : Inp') (us' : List Inp')
    (v₀ : InpJ) (vs : List InpJ) : Prop where
  m0 : (cbJ.getInit v₀).1 ∘ e = Sum.elim (cb.getInit u₀).1 (cb'.getInit u₀').1
  P0 : ((cbJ.getInit v₀).2 * ((cbJ.getInit v₀).2)ᵀ).submatrix e e =
    fromBlocks ((cb.getInit u₀).2 * ((cb.getInit u₀).2)ᵀ) 0 0 ((cb'.getInit u₀').2 * ((cb'.getInit u₀').2)ᵀ)
  len : us.length = vs.length
  len' : us'.length = vs.length
  step : ∀ (t : ℕ) u u' v, us[t]? = some u → us'[t]? = some u' → vs[t]? = some v →
    StepPair e o (stepOf cb u) (stepOf cb' u') (stepOf cbJ v)

variable {cb : Callbacks nx ny Inp} {cb' : Callbacks nx' ny' Inp'} {cbJ : Callbacks N M InpJ} {u₀ : Inp} {us : List Inp}
  {u₀' : Inp'} {us' : List Inp'} {v₀ : InpJ} {vs : List InpJ}

theorem SideBySide.take (h : SideBySide e o cb cb' cbJ u₀ us u₀' us' v₀ vs) (t : ℕ) :
    SideBySide e o cb cb' cbJ u₀ (us.take t) u₀' (us'.take t) v₀ (vs.take t) where
  m0 := h.m0
  P0 := h.P0
  len := by simp [h.len]
  len' := by simp [h.len']
  step r u u' v h1 h2 h3 := by
    by_cases hr : r < t
    · rw [List.getElem?_take_of_lt hr] at h1 h2 h3
      exact h.step r u u' v h1 h2 h3
    · rw [List.getElem?_take, if_neg hr] at h1; cases h1

theorem SideBySide.R (h : SideBySide e o cb cb' cbJ u₀ us u₀' us' v₀ vs) (hR : ∀ u ∈ us, (stepOf cb u).R.det ≠ 0)
    (hR' : ∀ u ∈ us', (stepOf cb' u).R.det ≠ 0) : ∀ v ∈ vs, (stepOf cbJ v).R.det ≠ 0 := by
  intro v hv
  obtain ⟨t, ht, rfl⟩ := List.mem_iff_getElem.1 hv
  have h1 : t < us.length := by rw [h.len]; exact ht
  have h2 : t < us'.length := by rw [h.len']; exact ht
  rw [(h.step t _ _ _ (List.getElem?_eq_getElem h1) (List.getElem?_eq_getElem h2) (List.getElem?_eq_getElem ht)).R_det]
  exact mul_ne_zero (hR _ (List.getElem_mem h1)) (hR' _ (List.getElem_mem h2))

theorem SideBySide.jointExp (h : SideBySide e o cb cb' cbJ u₀ us u₀' us' v₀ vs)
    (hR : ∀ u ∈ us, (stepOf cb u).R.det ≠ 0) (hR' : ∀ u ∈ us', (stepOf cb' u).R.det ≠ 0)
    {f : (ℕ → Fin nx → ℝ) → ℝ≥0∞} {f' : (ℕ → Fin nx' → ℝ) → ℝ≥0∞} (hf : Measurable f) (hf' : Measurable f') :
    jointExp (cbJ.getInit v₀).1 (cbJ.getInit v₀).2 (vs.map (stepOf cbJ))
        (fun p => f (fun t => p t ∘ e ∘ Sum.inl) * f' fun t => p t ∘ e ∘ Sum.inr) =
      jointExp (cb.getInit u₀).1 (cb.getInit u₀).2 (us.map (stepOf cb)) f *
        jointExp (cb'.getInit u₀').1 (cb'.getInit u₀').2 (us'.map (stepOf cb')) f' := by
  have key := pathExp_pair (e := e) (o := o) (us.map (stepOf cb)) (us'.map (stepOf cb')) (vs.map (stepOf cbJ)) (by simp [h.len])
    (by simp [h.len']) (fun t s s' j h1 h2 h3 => by
      rw [List.getElem?_map] at h1 h2 h3
      obtain ⟨u, hu, rfl⟩ := Option.map_eq_some_iff.1 h1
      obtain ⟨u', hu', rfl⟩ := Option.map_eq_some_iff.1 h2
      obtain ⟨v, hv, rfl⟩ := Option.map_eq_some_iff.1 h3
      exact h.step t u u' v hu hu' hv)
    (fun s hs => by obtain ⟨u, hu, rfl⟩ := List.mem_map.1 hs; exact hR u hu)
    (fun s hs => by obtain ⟨u, hu, rfl⟩ := List.mem_map.1 hs; exact hR' u hu) f f' hf hf'
  have hA := measurable_pathExp' (us.map (stepOf cb)) hf
  have hB := measurable_pathExp' (us'.map (stepOf cb')) hf'
  have hl1 : Measurable fun z : Fin nx ⊕ Fin nx' → ℝ => z ∘ Sum.inl := measurable_pi_lambda _ fun i => measurable_pi_apply _
  have hl2 : Measurable fun z : Fin nx ⊕ Fin nx' → ℝ => z ∘ Sum.inr := measurable_pi_lambda _ fun i => measurable_pi_apply _
  rw [Cuthbert.jointExp, Cuthbert.jointExp, Cuthbert.jointExp]
  simp only [key]
  refine (gauss_join h.m0 h.P0 (f := fun z => pathExp (us.map (stepOf cb)) f (z ∘ Sum.inl) *
    pathExp (us'.map (stepOf cb')) f' (z ∘ Sum.inr)) ((hA.comp hl1).mul (hB.comp hl2))).trans ?_
  simp only [Sum.elim_comp_inl, Sum.elim_comp_inr]
  rw [← lintegral_mul_const _ hA]
  refine lintegral_congr fun z => ?_
  rw [lintegral_const_mul _ hB]

/-- A weighted Gaussian law that factorises. -/
theorem gauss_factor {m : Fin nx → ℝ} {m' : Fin nx' → ℝ} {mJ : Fin N → ℝ} {L : Matrix (Fin nx) (Fin nx) ℝ}
    {L' : Matrix (Fin nx') (Fin nx') ℝ} {LJ : Matrix (Fin N) (Fin N) ℝ} {l l' lJ : ℝ}
    (h : ∀ (φ : (Fin nx → ℝ) → ℝ≥0∞) (φ' : (Fin nx' → ℝ) → ℝ≥0∞), Measurable φ → Measurable φ' →
      ENNReal.ofReal (Real.exp lJ) * ∫⁻ x, φ (x ∘ e ∘ Sum.inl) * φ' (x ∘ e ∘ Sum.inr) ∂gauss mJ LJ =
        (ENNReal.ofReal (Real.exp l) * ∫⁻ x, φ x ∂gauss m L) * (ENNReal.ofReal (Real.exp l') * ∫⁻ x, φ' x ∂gauss m' L')) :
    lJ = l + l' ∧ mJ ∘ e = Sum.elim m m' ∧ (LJ * LJᵀ).submatrix e e = fromBlocks (L * Lᵀ) 0 0 (L' * L'ᵀ) := by
  obtain ⟨c, hc⟩ : ∃ c, c = ENNReal.ofReal (Real.exp lJ) := ⟨_, rfl⟩
  obtain ⟨c₁, hc₁⟩ : ∃ c, c = ENNReal.ofReal (Real.exp l) := ⟨_, rfl⟩
  obtain ⟨c₂, hc₂⟩ : ∃ c, c = ENNReal.ofReal (Real.exp l') := ⟨_, rfl⟩
  have f1 : c₁ ≠ ∞ := by rw [hc₁]; exact ENNReal.ofReal_ne_top
  have f2 : c₂ ≠ ∞ := by rw [hc₂]; exact ENNReal.ofReal_ne_top
  have hmeas : Measurable fun x : Fin N → ℝ => (x ∘ e ∘ Sum.inl, x ∘ e ∘ Sum.inr) :=
    Measurable.prodMk (measurable_pi_lambda _ fun i => measurable_pi_apply _) (measurable_pi_lambda _ fun i => measurable_pi_apply _)
  have : IsFiniteMeasure (c₁ • gauss m L) := ⟨by simp [f1, lt_top_iff_ne_top]⟩
  have : IsFiniteMeasure (c₂ • gauss m' L') := ⟨by simp [f2, lt_top_iff_ne_top]⟩
  have hprod : (c₁ • gauss m L).prod (c₂ • gauss m' L') =
      (c • gauss mJ LJ).map fun x => (x ∘ e ∘ Sum.inl, x ∘ e ∘ Sum.inr) := by
    refine Measure.prod_eq fun s t hs ht => ?_
    have key := h (s.indicator 1) (t.indicator 1) (measurable_one.indicator hs) (measurable_one.indicator ht)
    rw [lintegral_indicator_one hs, lintegral_indicator_one ht, ← hc, ← hc₁, ← hc₂] at key
    rw [Measure.map_apply hmeas (hs.prod ht), Measure.smul_apply, Measure.smul_apply, Measure.smul_apply, smul_eq_mul, smul_eq_mul,
      smul_eq_mul, ← key, ← lintegral_indicator_one (hmeas (hs.prod ht))]
    congr 1
    refine lintegral_congr fun x => ?_
    by_cases h1 : x ∘ e ∘ Sum.inl ∈ s <;> by_cases h2 : x ∘ e ∘ Sum.inr ∈ t <;> simp [Set.indicator, h1, h2]
  obtain ⟨r1, r2, r3⟩ := weighted_gauss_injective (m := mJ ∘ e) (m' := Sum.elim m m') (L := LJ.submatrix e id)
    (M := fromBlocks L 0 0 L') (l := lJ) (l' := l + l') fun φ hφ => by
      have h1 := congrArg (fun ν => ∫⁻ z, φ (Sum.elim z.1 z.2) ∂ν) hprod
      have hm2 : Measurable fun z : (Fin nx → ℝ) × (Fin nx' → ℝ) => φ (Sum.elim z.1 z.2) := hφ.comp measurable_sumElim
      rw [lintegral_map hm2 hmeas, lintegral_smul_measure, lintegral_prod _ hm2.aemeasurable, lintegral_smul_measure] at h1
      simp only [lintegral_smul_measure, smul_eq_mul] at h1
      rw [lintegral_const_mul' _ _ f2, ← gauss_pair _ _ _ _ hφ, ← mul_assoc] at h1
      rw [← gauss_reindex e mJ LJ hφ, Real.exp_add, ENNReal.ofReal_mul (Real.exp_nonneg _), ← hc, ← hc₁, ← hc₂, h1]
      congr 1
      refine lintegral_congr fun x => ?_
      rw [sum_eta (x ∘ e)]
      rfl
  refine ⟨r1, r2, ?_⟩
  rw [← gram_submatrix, r3, gram_fromBlocks]

/-- **C104** (Kalman filter). For two independent models run as one, with their coordinates in any order, the filter
returns at each time the means of the two models stacked, a covariance without correlations between the two whose blocks
are the covariances of the two models, and, where they are finite, the sum of the log normalising constants. -/
theorem filter_side_by_side (h : SideBySide e o cb cb' cbJ u₀ us u₀' us' v₀ vs) (qr qr' qrJ : QR) (rng : Prng K)
    (rng' : Prng K') (rngJ : Prng KJ) (parallel parallel' parallelJ : Bool) (key : Option K) (key' : Option K')
    (keyJ : Option KJ) (hR : ∀ u ∈ us, (stepOf cb u).R.det ≠ 0) (hR' : ∀ u ∈ us', (stepOf cb' u).R.det ≠ 0) :
    ∃ (states : List (FilterState nx Inp)) (states' : List (FilterState nx' Inp')) (statesJ : List (FilterState N InpJ)),
      (filter rng (buildFilter qr cb) (u₀ :: us) parallel key).result = .ok states ∧
      (filter rng' (buildFilter qr' cb') (u₀' :: us') parallel' key').result = .ok states' ∧
      (filter rngJ (buildFilter qrJ cbJ) (v₀ :: vs) parallelJ keyJ).result = .ok statesJ ∧
      states.length = vs.length + 1 ∧ states'.length = vs.length + 1 ∧ statesJ.length = vs.length + 1 ∧
      ∀ t ≤ vs.length, ∃ s s' sJ m m' mJ L L' LJ, states[t]? = some s ∧ states'[t]? = some s' ∧ statesJ[t]? = some sJ ∧
        s.mean = some m ∧ s'.mean = some m' ∧ sJ.mean = some mJ ∧
        s.cholCov = some L ∧ s'.cholCov = some L' ∧ sJ.cholCov = some LJ ∧
        mJ ∘ e = Sum.elim m m' ∧ (LJ * LJᵀ).submatrix e e = fromBlocks (L * Lᵀ) 0 0 (L' * L'ᵀ) ∧
        (IsLower (cb.getInit u₀).2 → IsLower (cb'.getInit u₀').2 → IsLower (cbJ.getInit v₀).2 → ∀ l l' lJ,
          s.logNormalizingConstant = some l → s'.logNormalizingConstant = some l' →
          sJ.logNormalizingConstant = some lJ → lJ = l + l') := by
  obtain ⟨states, h1, h2, h3⟩ := kalman_filter_exact qr rng cb u₀ us parallel key hR
  obtain ⟨states', h1', h2', h3'⟩ := kalman_filter_exact qr' rng' cb' u₀' us' parallel' key' hR'
  obtain ⟨statesJ, h1J, h2J, h3J⟩ := kalman_filter_exact qrJ rngJ cbJ v₀ vs parallelJ keyJ (h.R hR hR')
  refine ⟨states, states', statesJ, h1, h1', h1J, by rw [h2, h.len], by rw [h2', h.len'], h2J, fun t ht => ?_⟩
  obtain ⟨s, m, L, l, h4, h5, h6, h7, h8⟩ := h3 t (by rw [h.len]; exact ht)
  obtain ⟨s', m', L', l', h4', h5', h6', h7', h8'⟩ := h3' t (by rw [h.len']; exact ht)
  obtain ⟨sJ, mJ, LJ, lJ, h4J, h5J, h6J, h7J, h8J⟩ := h3J t ht
  obtain ⟨r1, r2, r3⟩ := gauss_factor (e := e) (m := m) (m' := m') (mJ := mJ) (L := L) (L' := L') (LJ := LJ) (l := l) (l' := l')
    (lJ := lJ) fun φ φ' hφ hφ' => by
      rw [← h7 φ hφ, ← h7' φ' hφ', ← (h.take t).jointExp (fun u hu => hR u (List.mem_of_mem_take hu))
        (fun u hu => hR' u (List.mem_of_mem_take hu)) (f := fun p => φ (p t)) (f' := fun p => φ' (p t))
        (hφ.comp (measurable_pi_apply t)) (hφ'.comp (measurable_pi_apply t))]
      refine (h7J (fun x => φ (x ∘ e ∘ Sum.inl) * φ' (x ∘ e ∘ Sum.inr)) ?_).symm
      exact (hφ.comp (measurable_pi_lambda _ fun i => measurable_pi_apply _)).mul
        (hφ'.comp (measurable_pi_lambda _ fun i => measurable_pi_apply _))
  refine ⟨s, s', sJ, m, m', mJ, L, L', LJ, h4, h4', h4J, h5, h5', h5J, h6, h6', h6J, r2, r3, ?_⟩
  intro i1 i2 i3 a b c ha hb hc
  rw [(h8 i1).1 a ha, (h8' i2).1 b hb, (h8J i3).1 c hc, r1]

/-- **C104** (Kalman smoother). The same for the smoothed means and covariances. -/
theorem smoother_side_by_side (h : SideBySide e o cb cb' cbJ u₀ us u₀' us' v₀ vs) (hvs : vs ≠ []) (qr qr' qrJ : QR)
    (rng rng₁ : Prng K) (rng' rng₁' : Prng K') (rngJ rng₁J : Prng KJ)
    (parallel parallel₁ parallel' parallel₁' parallelJ parallel₁J : Bool)
    (key key₁ : Option K) (key' key₁' : Option K') (keyJ key₁J : Option KJ) (opts : SmootherOpts nx Inp)
    (opts' : SmootherOpts nx' Inp') (optsJ : SmootherOpts N InpJ)
    (hR : ∀ u ∈ us, (stepOf cb u).R.det ≠ 0) (hR' : ∀ u ∈ us', (stepOf cb' u).R.det ≠ 0)
    {filterStates : List (FilterState nx Inp)} {filterStates' : List (FilterState nx' Inp')}
    {filterStatesJ : List (FilterState N InpJ)}
    (hf : (filter rng (buildFilter qr cb) (u₀ :: us) parallel key).result = .ok filterStates)
    (hf' : (filter rng' (buildFilter qr' cb') (u₀' :: us') parallel' key').result = .ok filterStates')
    (hfJ : (filter rngJ (buildFilter qrJ cbJ) (v₀ :: vs) parallelJ keyJ).result = .ok filterStatesJ)
    (hP : ∀ (t : ℕ) s L u, filterStates[t]? = some s → s.cholCov = some L → us[t]? = some u →
      ((stepOf cb u).F * (L * Lᵀ) * ((stepOf cb u).F)ᵀ +
        (stepOf cb u).cholQ * ((stepOf cb u).cholQ)ᵀ).det ≠ 0)
    (hP' : ∀ (t : ℕ) s L u, filterStates'[t]? = some s → s.cholCov = some L → us'[t]? = some u →
      ((stepOf cb' u).F * (L * Lᵀ) * ((stepOf cb' u).F)ᵀ +
        (stepOf cb' u).cholQ * ((stepOf cb' u).cholQ)ᵀ).det ≠ 0) :
    ∃ (states : List (SmootherState nx Inp)) (states' : List (SmootherState nx' Inp'))
      (statesJ : List (SmootherState N InpJ)),
      (smoother rng₁ FilterState.modelInputs (fun u => .ok (opts.dummy u))
        (buildSmoother qr cb.getDynamics opts) filterStates none parallel₁ key₁).result = .ok states ∧
      (smoother rng₁' FilterState.modelInputs (fun u => .ok (opts'.dummy u))
        (buildSmoother qr' cb'.getDynamics opts') filterStates' none parallel₁' key₁').result = .ok states' ∧
      (smoother rng₁J FilterState.modelInputs (fun u => .ok (optsJ.dummy u))
        (buildSmoother qrJ cbJ.getDynamics optsJ) filterStatesJ none parallel₁J key₁J).result = .ok statesJ ∧
      states.length = vs.length + 1 ∧ states'.length = vs.length + 1 ∧ statesJ.length = vs.length + 1 ∧
      ∀ t ≤ vs.length, ∃ s s' sJ m m' mJ L L' LJ, states[t]? = some s ∧ states'[t]? = some s' ∧ statesJ[t]? = some sJ ∧
        s.mean = some m ∧ s'.mean = some m' ∧ sJ.mean = some mJ ∧
        s.cholCov = some L ∧ s'.cholCov = some L' ∧ sJ.cholCov = some LJ ∧
        mJ ∘ e = Sum.elim m m' ∧ (LJ * LJᵀ).submatrix e e = fromBlocks (L * Lᵀ) 0 0 (L' * L'ᵀ) := by
  have hus : us ≠ [] := by rintro rfl; exact hvs (List.length_eq_zero_iff.1 h.len.symm)
  have hus' : us' ≠ [] := by rintro rfl; exact hvs (List.length_eq_zero_iff.1 h.len'.symm)
  have hPJ : ∀ (t : ℕ) s L v, filterStatesJ[t]? = some s → s.cholCov = some L → vs[t]? = some v →
      ((stepOf cbJ v).F * (L * Lᵀ) * ((stepOf cbJ v).F)ᵀ +
        (stepOf cbJ v).cholQ * ((stepOf cbJ v).cholQ)ᵀ).det ≠ 0 := by
    intro t sJ LJ v hs hL hv
    have ht : t < vs.length := by
      by_contra hc; rw [List.getElem?_eq_none (by omega)] at hv; cases hv
    obtain ⟨F1, F2, F3, a1, a2, a3, -, -, -, hall⟩ := filter_side_by_side h qr qr' qrJ rng rng' rngJ parallel parallel' parallelJ
      key key' keyJ hR hR'
    rw [hf] at a1; rw [hf'] at a2; rw [hfJ] at a3
    cases a1; cases a2; cases a3
    obtain ⟨s, s', sJ', m, m', mJ, L, L', LJ', b1, b2, b3, -, -, -, b4, b5, b6, -, b7, -⟩ := hall t ht.le
    rw [hs] at b3; cases b3
    rw [hL] at b6; cases b6
    have hu : us[t]? = some (us[t]'(by rw [h.len]; exact ht)) := List.getElem?_eq_getElem _
    have hu' : us'[t]? = some (us'[t]'(by rw [h.len']; exact ht)) := List.getElem?_eq_getElem _
    have hp := h.step t _ _ _ hu hu' hv
    have d1 := hP t _ _ _ b1 b4 hu
    have d2 := hP' t _ _ _ b2 b5 hu'
    rw [← det_submatrix_equiv_self e]
    have e1 : ((stepOf cbJ v).F * (LJ * LJᵀ) * ((stepOf cbJ v).F)ᵀ).submatrix e e =
        (stepOf cbJ v).F.submatrix e e * (LJ * LJᵀ).submatrix e e * ((stepOf cbJ v).F.submatrix e e)ᵀ := by
      rw [transpose_submatrix, submatrix_mul_equiv, submatrix_mul_equiv]
    rw [submatrix_add, Pi.add_apply, Pi.add_apply, e1, b7, hp.F, hp.Q, fromBlocks_transpose, fromBlocks_multiply, fromBlocks_multiply,
      fromBlocks_add]
    simp only [Matrix.mul_zero, Matrix.zero_mul, add_zero, zero_add, transpose_zero, det_fromBlocks_zero₂₁]
    exact mul_ne_zero d1 d2
  obtain ⟨states, l, h1, h2, h3, -⟩ := kalman_smoother_exact qr rng rng₁ cb u₀ us hus parallel parallel₁ key
    key₁ opts hR filterStates hf hP none (.inl rfl)
  obtain ⟨states', l', h1', h2', h3', -⟩ := kalman_smoother_exact qr' rng' rng₁' cb' u₀' us' hus' parallel' parallel₁'
    key' key₁' opts' hR' filterStates' hf' hP' none (.inl rfl)
  obtain ⟨statesJ, lJ, h1J, h2J, h3J, -⟩ := kalman_smoother_exact qrJ rngJ rng₁J cbJ v₀ vs hvs parallelJ parallel₁J
    keyJ key₁J optsJ (h.R hR hR') filterStatesJ hfJ hPJ none (.inl rfl)
  refine ⟨states, states', statesJ, h1, h1', h1J, by rw [h2, h.len], by rw [h2', h.len'], h2J, fun t ht => ?_⟩
  obtain ⟨s, m, L, h4, h5, h6, h7⟩ := h3 t (by rw [h.len]; exact ht)
  obtain ⟨s', m', L', h4', h5', h6', h7'⟩ := h3' t (by rw [h.len']; exact ht)
  obtain ⟨sJ, mJ, LJ, h4J, h5J, h6J, h7J⟩ := h3J t ht
  obtain ⟨-, r2, r3⟩ := gauss_factor (e := e) (m := m) (m' := m') (mJ := mJ) (L := L) (L' := L') (LJ := LJ) (l := l) (l' := l')
    (lJ := lJ) fun φ φ' hφ hφ' => by
      rw [← h7 φ hφ, ← h7' φ' hφ', ← h.jointExp hR hR' (f := fun p => φ (p t)) (f' := fun p => φ' (p t))
        (hφ.comp (measurable_pi_apply t)) (hφ'.comp (measurable_pi_apply t))]
      refine (h7J (fun x => φ (x ∘ e ∘ Sum.inl) * φ' (x ∘ e ∘ Sum.inr)) ?_).symm
      exact (hφ.comp (measurable_pi_lambda _ fun i => measurable_pi_apply _)).mul
        (hφ'.comp (measurable_pi_lambda _ fun i => measurable_pi_apply _))
  exact ⟨s, s', sJ, m, m', mJ, L, L', LJ, h4, h4', h4J, h5, h5', h5J, h6, h6', h6J, r2, r3⟩

/-- Non-vacuity: any two models can be stacked. -/
theorem exists_side_by_side (cb : Callbacks nx ny Inp) (cb' : Callbacks nx' ny' Inp') (u₀ : Inp) (u₀' : Inp')
    (us : List (Inp × Inp')) : ∃ cbJ : Callbacks (nx + nx') (ny + ny') (Inp × Inp'),
      SideBySide finSumFinEquiv finSumFinEquiv cb cb' cbJ u₀ (us.map Prod.fst) u₀' (us.map Prod.snd) (u₀, u₀') us := by
  let B : ∀ {a b c d : ℕ}, Matrix (Fin a) (Fin b) ℝ → Matrix (Fin c) (Fin d) ℝ → Matrix (Fin (a + c)) (Fin (b + d)) ℝ :=
    fun A A' => (fromBlocks A 0 0 A').submatrix finSumFinEquiv.symm finSumFinEquiv.symm
  have hB : ∀ {a c : ℕ} (A : Matrix (Fin a) (Fin a) ℝ) (A' : Matrix (Fin c) (Fin c) ℝ),
      (B A A' * (B A A')ᵀ).submatrix finSumFinEquiv finSumFinEquiv = fromBlocks (A * Aᵀ) 0 0 (A' * A'ᵀ) := by
    intro a c A A'
    simp only [B, transpose_submatrix, submatrix_mul_equiv, submatrix_submatrix, gram_fromBlocks]
    simp
  refine ⟨⟨fun u => (Sum.elim (cb.getInit u.1).1 (cb'.getInit u.2).1 ∘ finSumFinEquiv.symm, B (cb.getInit u.1).2 (cb'.getInit u.2).2),
    fun u => (B (cb.getDynamics u.1).1 (cb'.getDynamics u.2).1,
      Sum.elim (cb.getDynamics u.1).2.1 (cb'.getDynamics u.2).2.1 ∘ finSumFinEquiv.symm,
      B (cb.getDynamics u.1).2.2 (cb'.getDynamics u.2).2.2),
    fun u => (B (cb.getObservation u.1).1 (cb'.getObservation u.2).1,
      Sum.elim (cb.getObservation u.1).2.1 (cb'.getObservation u.2).2.1 ∘ finSumFinEquiv.symm,
      B (cb.getObservation u.1).2.2.1 (cb'.getObservation u.2).2.2.1,
      Sum.elim (cb.getObservation u.1).2.2.2 (cb'.getObservation u.2).2.2.2 ∘ finSumFinEquiv.symm)⟩, ?_, ?_, ?_, ?_, ?_⟩
  · funext i; simp
  · exact hB _ _
  · simp
  · simp
  · intro t u u' v h1 h2 h3
    rw [List.getElem?_map, h3] at h1 h2
    cases h1; cases h2
    refine ⟨?_, ?_, hB _ _, ?_, ?_, hB _ _, ?_⟩
    · simp [stepOf, B]
    · funext i; simp [stepOf]
    · simp [stepOf, B]
    · funext i; simp [stepOf]
    · funext i; simp [stepOf]

end

end Cuthbert.Kalman
