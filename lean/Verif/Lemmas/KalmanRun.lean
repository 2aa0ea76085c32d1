import Verif.Lemmas.Kalman
import Verif.Lemmas.LGSSM
import Verif.Props.Interface

/-!
# Runs of the Kalman filter and smoother in covariance form
-/

namespace Cuthbert.Kalman
open Matrix Cuthbert Cuthbert.Spec

noncomputable section

set_option linter.unusedSectionVars false

variable {nx ny : ℕ} {Inp K : Type*}

/-- The linear-Gaussian step described by the callbacks at one input. -/
def stepOf (cb : Callbacks nx ny Inp) (u : Inp) : Step nx ny where
  F := (cb.getDynamics u).1
  c := (cb.getDynamics u).2.1
  cholQ := (cb.getDynamics u).2.2
  H := (cb.getObservation u).1
  d := (cb.getObservation u).2.1
  cholR := (cb.getObservation u).2.2.1
  y := (cb.getObservation u).2.2.2

/-- The innovation covariance of the scan element is nonsingular. -/
def ScanOk (s : Step nx ny) : Prop :=
  (innovCov (s.cholQ * s.cholQᵀ) (obsH s.y s.H) s.R).det ≠ 0

theorem ScanOk.of_R (s : Step nx ny) (h : s.R.det ≠ 0) : ScanOk s := innov_det_of_R s h (isGram_of _)

/-- The covariance form of a filtering state. -/
def _root_.Cuthbert.KF.elem (k : KF nx) : CElem (Fin nx) := ⟨0, k.m, k.P, 0, 0, k.l⟩

theorem filterPrepare_elem (qr : QR) (cb : Callbacks nx ny Inp) (u : Inp) :
    (filterPrepare qr cb u).elem = filterParams qr (stepOf cb u).F (stepOf cb u).c (stepOf cb u).cholQ
      (stepOf cb u).H (stepOf cb u).d (stepOf cb u).cholR (stepOf cb u).y := rfl

/-- One online step in covariance form. -/
theorem combine_step (qr : QR) (cb : Callbacks nx ny Inp) (u : Inp) (s : FilterState nx Inp)
    (e : FilterElem nx) (he : s.elem = some e) (k : KF nx) (hr : Repr e k.elem)
    (hok : ScanOk (stepOf cb u)) :
    ∃ e', (filterCombine qr s (filterPrepare qr cb u)).elem = some e' ∧
      Repr e' (kfStep k (stepOf cb u)).elem ∧ IsLower e'.U ∧
      (IsLower e.U → (∀ l, e.ell = some l → l = k.l) →
        ∀ l, e'.ell = some l → l = (kfStep k (stepOf cb u)).l) ∧
      (IsLower e.U → k.P.det ≠ 0 → e.ell ≠ none → e'.ell ≠ none) := by
  obtain ⟨p, hp, hpr, hpl, -⟩ := filterParams_eq qr (stepOf cb u).F (stepOf cb u).c (stepOf cb u).cholQ
    (stepOf cb u).H (stepOf cb u).d (stepOf cb u).cholR (stepOf cb u).y hok
  obtain ⟨e', he', hr', hlow, hell, hdiag, hnone, -⟩ := filteringOperator_eq qr hr hpr
  have hP : IsGram k.P := ⟨e.U, hr.C.symm⟩
  have hstep := op_step k.m (stepOf cb u).F (stepOf cb u).c (obsH (stepOf cb u).y (stepOf cb u).H)
    (obsV (stepOf cb u).y (stepOf cb u).d) (obsY (stepOf cb u).y) k.l hP
    (isGram_of (stepOf cb u).cholQ) (stepOf cb u).R_gram hok
  have hop : k.elem.op (prepC (stepOf cb u).F (stepOf cb u).c
      ((stepOf cb u).cholQ * ((stepOf cb u).cholQ)ᵀ) (obsH (stepOf cb u).y (stepOf cb u).H)
      (obsV (stepOf cb u).y (stepOf cb u).d) (stepOf cb u).R (obsY (stepOf cb u).y)) =
      (kfStep k (stepOf cb u)).elem := hstep
  have hell2 := fun l₁ h1 h2 h3 => hell l₁ _ h1 hpl h2 h3
  refine ⟨e', ?_, ?_, hlow, ?_, ?_⟩
  · simp only [filterCombine, he, filterPrepare_elem, hp]
    exact he'
  · rw [← hop]; exact hr'
  · intro hl hle l hl'
    have hd : ∀ i, e.U i i ≠ 0 := by
      intro i h0
      rw [hdiag ⟨i, h0⟩] at hl'
      cases hl'
    cases hee : e.ell with
    | none => rw [hnone hee] at hl'; cases hl'
    | some l₁ =>
      have := hell2 l₁ hee hl hd
      rw [hl', Option.some.injEq] at this
      rw [this]
      have h1 : l₁ = k.l := hle l₁ hee
      subst h1
      exact congrArg CElem.ell hop
  · intro hl hPd hne
    cases hee : e.ell with
    | none => exact absurd hee hne
    | some l₁ =>
      have hd : ∀ i, e.U i i ≠ 0 := hl.diag_ne_zero_iff_gram.mpr (by
        have : e.U * e.Uᵀ = k.P := hr.C
        rw [this]; exact hPd)
      rw [hell2 l₁ hee hl hd]
      simp

/-- The filtering recursion of the model described by the callbacks, after `t` steps. -/
def kfAt (cb : Callbacks nx ny Inp) (u₀ : Inp) (us : List Inp) (t : ℕ) : KF nx :=
  (((us.take t).map (stepOf cb))).foldl kfStep
    ⟨(cb.getInit u₀).1, (cb.getInit u₀).2 * ((cb.getInit u₀).2)ᵀ, 0⟩

theorem kfAt_succ (cb : Callbacks nx ny Inp) (u₀ : Inp) (us : List Inp) (t : ℕ) (u : Inp)
    (hu : us[t]? = some u) : kfAt cb u₀ us (t + 1) = kfStep (kfAt cb u₀ us t) (stepOf cb u) := by
  have : us.take (t + 1) = us.take t ++ [u] := by
    rw [List.take_add_one, hu]; rfl
  rw [kfAt, this, List.map_append, List.foldl_append]
  rfl

/-- The state at time `t` of every filter run. -/
theorem run_invariant (qr : QR) (cb : Callbacks nx ny Inp) (u₀ : Inp) (us : List Inp)
    (keys : ℕ → Option K) (states : List (FilterState nx Inp))
    (hrun : IsOnlineFilterRun (buildFilter (K := K) qr cb).initPrepare
      (buildFilter (K := K) qr cb).filterPrepare (buildFilter (K := K) qr cb).filterCombine (u₀ :: us)
      keys states) :
    ∀ t ≤ us.length, (∀ u ∈ us.take t, ScanOk (stepOf cb u)) → ∃ s e, states[t]? = some s ∧
      s.elem = some e ∧ Repr e (kfAt cb u₀ us t).elem ∧ (1 ≤ t → IsLower e.U) ∧
      (IsLower (cb.getInit u₀).2 → IsLower e.U ∧ ∀ l, e.ell = some l → l = (kfAt cb u₀ us t).l) ∧
      (IsLower (cb.getInit u₀).2 → (∀ t' < t, (kfAt cb u₀ us t').P.det ≠ 0) → e.ell ≠ none) := by
  intro t
  induction t with
  | zero =>
    intro _ _
    refine ⟨_, _, hrun.first u₀ rfl, rfl, ⟨rfl, rfl, rfl, rfl, ?_⟩, fun h => absurd h (by simp), ?_, ?_⟩
    · simp [Cuthbert.KF.elem]
    · intro hl
      refine ⟨hl, fun l h => ?_⟩
      have h' : some (0 : ℝ) = some l := h
      simpa [kfAt] using h'.symm
    · intro _ _ h; cases h
  | succ t ih =>
    intro ht hok
    have htl : t < us.length := ht
    have hut : us[t]? = some us[t] := List.getElem?_eq_getElem htl
    obtain ⟨s, e, hs, he, hr, -, hell, hfin⟩ := ih htl.le fun u hu => hok u (by
      rw [List.take_add_one]; exact List.mem_append_left _ hu)
    have hoku : ScanOk (stepOf cb us[t]) := hok _ (by
      rw [List.take_add_one, hut]; exact List.mem_append_right _ (List.mem_singleton_self _))
    obtain ⟨e', he', hr', hlow, h1, h2⟩ := combine_step qr cb us[t] s e he _ hr hoku
    have hst := hrun.step t us[t] s (by simp) hs
    refine ⟨_, e', hst, he', ?_, fun _ => hlow, ?_, ?_⟩
    · rw [kfAt_succ cb u₀ us t _ hut]; exact hr'
    · intro hl
      refine ⟨hlow, fun l hl' => ?_⟩
      rw [kfAt_succ cb u₀ us t _ hut]
      exact h1 (hell hl).1 (hell hl).2 l hl'
    · intro hl hd
      exact h2 (hell hl).1 (hd t (Nat.lt_succ_self t))
        (hfin hl fun t' ht' => hd t' (ht'.trans (Nat.lt_succ_self t)))

end

end Cuthbert.Kalman
