import Verif.Lemmas.KalmanRun
import Verif.Lemmas.KalmanReindex

/-!
# The parallel Kalman filter simulates the covariance-form recursion
-/

namespace Cuthbert.Kalman
open Matrix Cuthbert Cuthbert.Spec

noncomputable section

set_option linter.unusedSectionVars false

variable {nx ny : ℕ} {Inp K : Type*}

/-- Full-rank noise stays full rank after removing the missing components. -/
theorem obsR_det (y : Fin ny → Option ℝ) (L : Matrix (Fin ny) (Fin ny) ℝ) (h : (L * Lᵀ).det ≠ 0) :
    (obsL y L * (obsL y L)ᵀ).det ≠ 0 := by
  have hp : (L * Lᵀ).PosDef := (isGram_of L).posDef h
  have hs := hp.submatrix (e := fun i : Obs y => i.1) Subtype.val_injective
  have he : (L * Lᵀ).submatrix (fun i : Obs y => i.1) (fun i : Obs y => i.1) =
      obsL y L * (obsL y L)ᵀ := by
    ext i j
    simp [obsL, Matrix.mul_apply]
  rw [he] at hs
  exact hs.det_pos.ne'

/-- The covariance-form scan element of one step. -/
def prepOf (s : Step nx ny) : CElem (Fin nx) :=
  prepC s.F s.c (s.cholQ * s.cholQᵀ) (obsH s.y s.H) (obsV s.y s.d) s.R (obsY s.y)

theorem prepOf_valid (s : Step nx ny) (h : ScanOk s) : (prepOf s).Valid :=
  prepC_valid _ (isGram_of _) s.R_gram h

theorem kf_op_prep (k : KF nx) (hP : IsGram k.P) (s : Step nx ny) (h : ScanOk s) :
    k.elem.op (prepOf s) = (kfStep k s).elem :=
  op_step k.m s.F s.c (obsH s.y s.H) (obsV s.y s.d) (obsY s.y) k.l hP (isGram_of _) s.R_gram h

theorem runningFold_kf (ss : List (Step nx ny)) : ∀ (k : KF nx), IsGram k.P → (∀ s ∈ ss, ScanOk s) →
    ∀ t ≤ ss.length, (runningFold CElem.op k.elem (ss.map prepOf))[t]? =
      some ((ss.take t).foldl kfStep k).elem := by
  induction ss with
  | nil =>
    intro k _ _ t ht
    have : t = 0 := by simpa using ht
    subst this; rfl
  | cons s ss ih =>
    intro k hk hs t ht
    cases t with
    | zero => rfl
    | succ t =>
      have h0 := hs s (List.mem_cons_self ..)
      simp only [List.map_cons, runningFold, List.getElem?_cons_succ, List.take_succ_cons,
        List.foldl_cons]
      rw [kf_op_prep k hk s h0]
      exact ih _ (kfStep_gram hk s h0) (fun s' h => hs s' (List.mem_cons_of_mem _ h)) t
        (by simpa using ht)

/-- Simulation of a covariance-form element: `low` says the initial factor is lower triangular, `nd` that
all covariances involved are nonsingular. -/
def Sim (low nd : Prop) (q : FilterState nx Inp × CElem (Fin nx)) : Prop :=
  ∃ e, q.1.elem = some e ∧ Repr e q.2 ∧
    (low → IsLower e.U ∧ ∀ l, e.ell = some l → l = q.2.ell) ∧
    (low → nd → e.ell ≠ none ∧ q.2.C.det ≠ 0)

theorem op_C_det {c₁ c₂ : CElem (Fin nx)} (h₁ : c₁.Valid) (h₂ : c₂.Valid)
    (hd : c₂.C.det ≠ 0) : (c₁.op c₂).C.det ≠ 0 := by
  have key : IsGram (elimD c₁.C c₂.J * c₁.C) := by
    have hv : (CElem.op c₁ ⟨1, 0, 0, 0, c₂.J, 0⟩).Valid := h₁.op ⟨isGram_zero, h₂.2⟩
    have := hv.1
    simpa [CElem.op] using this
  have : (c₁.op c₂).C = c₂.C + c₂.A * (elimD c₁.C c₂.J * c₁.C) * c₂.Aᵀ := by
    simp only [CElem.op, Matrix.mul_assoc]; rw [add_comm]
  rw [this]
  exact h₂.1.det_add_ne_zero hd (key.conj _)

theorem Sim.combine (qr : QR) {low nd : Prop} {a b : FilterState nx Inp × CElem (Fin nx)}
    (ha : Sim low nd a) (hb : Sim low nd b) :
    Sim low nd (filterCombine qr a.1 b.1, a.2.op b.2) := by
  obtain ⟨e₁, he₁, r₁, v₁, n₁⟩ := ha
  obtain ⟨e₂, he₂, r₂, v₂, n₂⟩ := hb
  obtain ⟨e, he, hr, hlow, hell, hdiag, hn1, hn2⟩ := filteringOperator_eq qr r₁ r₂
  have hs : ∀ l₁ l₂, e₁.ell = some l₁ → e₂.ell = some l₂ → low → (∀ i, e₁.U i i ≠ 0) →
      e.ell = some (a.2.op b.2).ell := by
    intro l₁ l₂ h1 h2 hl hd
    rw [hell l₁ l₂ h1 h2 (v₁ hl).1 hd]
    have q1 := (v₁ hl).2 l₁ h1
    have q2 := (v₂ hl).2 l₂ h2
    subst q1; subst q2
    rfl
  refine ⟨e, ?_, hr, ?_, ?_⟩
  · simp only [filterCombine, he₁, he₂]; exact he
  · intro hl
    refine ⟨hlow, fun l h => ?_⟩
    have hd : ∀ i, e₁.U i i ≠ 0 := by
      intro i h0; rw [hdiag ⟨i, h0⟩] at h; cases h
    cases h1 : e₁.ell with
    | none => rw [hn1 h1] at h; cases h
    | some l₁ =>
      cases h2 : e₂.ell with
      | none => rw [hn2 h2] at h; cases h
      | some l₂ =>
        rw [hs l₁ l₂ h1 h2 hl hd, Option.some.injEq] at h
        exact h.symm
  · intro hl hn
    obtain ⟨m1, d1⟩ := n₁ hl hn
    obtain ⟨m2, d2⟩ := n₂ hl hn
    obtain ⟨l₁, h1⟩ := Option.ne_none_iff_exists'.mp m1
    obtain ⟨l₂, h2⟩ := Option.ne_none_iff_exists'.mp m2
    have hd : ∀ i, e₁.U i i ≠ 0 := (v₁ hl).1.diag_ne_zero_iff_gram.mpr (by rw [r₁.C]; exact d1)
    exact ⟨by rw [hs l₁ l₂ h1 h2 hl hd]; simp, op_C_det r₁.valid r₂.valid d2⟩

theorem filterElems_eq (qr : QR) (rng : Prng K) (cb : Callbacks nx ny Inp) (us : List Inp)
    (key : Option K) :
    filterElems rng (buildFilter qr cb) us key = us.map (filterPrepare qr cb) := by
  refine List.ext_getElem? fun t => ?_
  rw [filterElems_get, List.getElem?_map]
  rfl

/-- The state at time `t` of the parallel filter. -/
theorem parallel_invariant (qr : QR) (rng : Prng K) (cb : Callbacks nx ny Inp) (u₀ : Inp)
    (us : List Inp) (key : Option K) (hok : ∀ u ∈ us, ScanOk (stepOf cb u)) (nd : Prop)
    (hnd : nd → ((cb.getInit u₀).2 * ((cb.getInit u₀).2)ᵀ).det ≠ 0 ∧
      ∀ u ∈ us, (prepOf (stepOf cb u)).C.det ≠ 0) :
    ∃ states, (filter rng (buildFilter qr cb) (u₀ :: us) true key).result = .ok states ∧
      states.length = us.length + 1 ∧ ∀ t ≤ us.length, ∃ s, states[t]? = some s ∧
        Sim (IsLower (cb.getInit u₀).2) nd (s, (kfAt cb u₀ us t).elem) := by
  rw [filter_parallel_eq, filterElems_eq]
  refine ⟨_, rfl, by rw [associativeScan_length]; simp, ?_⟩
  obtain ⟨k₀, hk₀⟩ : ∃ k : KF nx, k = ⟨(cb.getInit u₀).1, (cb.getInit u₀).2 * ((cb.getInit u₀).2)ᵀ, 0⟩ :=
    ⟨_, rfl⟩
  obtain ⟨i₀, hi₀⟩ : ∃ i, i = (buildFilter (K := K) qr cb).initPrepare u₀
    (keyAt rng key (us.length + 1) 0) := ⟨_, rfl⟩
  have hk₀g : IsGram k₀.P := by rw [hk₀]; exact isGram_of _
  let opp : FilterState nx Inp × CElem (Fin nx) → FilterState nx Inp × CElem (Fin nx) →
    FilterState nx Inp × CElem (Fin nx) := fun a b => (filterCombine qr a.1 b.1, a.2.op b.2)
  obtain ⟨pairs, hpairs⟩ : ∃ ps : List (FilterState nx Inp × CElem (Fin nx)),
    ps = (i₀, k₀.elem) :: us.map fun u => (filterPrepare qr cb u, prepOf (stepOf cb u)) := ⟨_, rfl⟩
  have hmem : ∀ x ∈ pairs, Sim (IsLower (cb.getInit u₀).2) nd x := by
    intro x hx
    rw [hpairs] at hx
    rcases List.mem_cons.mp hx with rfl | hx
    · rw [hi₀, hk₀]
      refine ⟨_, rfl, ⟨rfl, rfl, rfl, rfl, by simp [Cuthbert.KF.elem]⟩, fun hl => ⟨hl, fun l h => ?_⟩,
        fun hl hn => ⟨by simp, (hnd hn).1⟩⟩
      have h' : some (0 : ℝ) = some l := h
      exact (Option.some.inj h').symm
    · obtain ⟨u, hu, rfl⟩ := List.mem_map.mp hx
      obtain ⟨e, he, hr, hl, hlow⟩ := filterParams_eq qr (stepOf cb u).F (stepOf cb u).c
        (stepOf cb u).cholQ (stepOf cb u).H (stepOf cb u).d (stepOf cb u).cholR (stepOf cb u).y (hok u hu)
      refine ⟨e, he, hr, fun _ => ⟨hlow, fun l h => ?_⟩, fun _ hn => ⟨by rw [hl]; simp, (hnd hn).2 u hu⟩⟩
      rw [hl, Option.some.injEq] at h
      exact h.symm
  have hcl : ∀ a b, Sim (IsLower (cb.getInit u₀).2) nd a → Sim (IsLower (cb.getInit u₀).2) nd b →
      Sim (IsLower (cb.getInit u₀).2) nd (opp a b) := fun a b ha hb => Sim.combine qr ha hb
  have h1 := associativeScan_map opp (filterCombine qr) Prod.fst _ hcl (fun _ _ _ _ => rfl) pairs hmem
  have h2 := associativeScan_map opp CElem.op Prod.snd _ hcl (fun _ _ _ _ => rfl) pairs hmem
  have e1 : pairs.map Prod.fst = i₀ :: us.map (filterPrepare qr cb) := by
    rw [hpairs]; simp
  have e2 : pairs.map Prod.snd = k₀.elem :: (us.map (stepOf cb)).map prepOf := by
    rw [hpairs]; simp
  rw [e1] at h1
  rw [e2] at h2
  have hrf := associativeScan_eq_runningFold CElem.op CElem.Valid (fun a b ha hb => ha.op hb)
    (fun a b c ha hb hc => CElem.op_assoc a b c ha hb hc) k₀.elem ((us.map (stepOf cb)).map prepOf) (by
      intro x hx
      rw [← e2] at hx
      obtain ⟨p, hp, rfl⟩ := List.mem_map.mp hx
      obtain ⟨e, -, hr, -⟩ := hmem p hp
      exact hr.valid)
  rw [hrf] at h2
  intro t ht
  have hlen : t < (associativeScan opp pairs).length := by
    rw [associativeScan_length, hpairs]; simp; omega
  obtain ⟨q, hq⟩ : ∃ q, (associativeScan opp pairs)[t]? = some q := ⟨_, List.getElem?_eq_getElem hlen⟩
  have hqS := h1.2 q (List.mem_of_getElem? hq)
  have hq1 : (associativeScan (filterCombine qr) (i₀ :: us.map (filterPrepare qr cb)))[t]? = some q.1 := by
    rw [← h1.1, List.getElem?_map, hq]; rfl
  have hq2 : (runningFold CElem.op k₀.elem ((us.map (stepOf cb)).map prepOf))[t]? = some q.2 := by
    rw [← h2.1, List.getElem?_map, hq]; rfl
  rw [runningFold_kf _ k₀ hk₀g (by
    intro s hs; obtain ⟨u, hu, rfl⟩ := List.mem_map.mp hs; exact hok u hu) t (by simpa using ht),
    Option.some.injEq] at hq2
  refine ⟨q.1, ?_, ?_⟩
  · rw [← hi₀]; exact hq1
  · have : (kfAt cb u₀ us t).elem = q.2 := by
      rw [← hq2, kfAt, hk₀, List.map_take]
    rw [this]
    exact hqS

end

end Cuthbert.Kalman
