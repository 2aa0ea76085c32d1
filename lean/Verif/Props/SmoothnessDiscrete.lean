import Verif.Lemmas.Smoothness
import Verif.Props.Discrete

/-!
# The discrete filter and smoother are differentiable functions of the model (C106)
-/

namespace Cuthbert.Discrete
open Cuthbert.Spec Cuthbert.Fl

noncomputable section

variable {n : ℕ} {Inp K : Type} {E : Type*} [NormedAddCommGroup E] [NormedSpace ℝ E] {r : WithTop ℕ∞} {U : Set E}

/-- The probabilities of the model are smooth functions of `θ`, for the first `T` steps. -/
structure SmoothHMM (r : WithTop ℕ∞) (U : Set E) (T : ℕ) (M : E → HMM (Fin (n + 1))) : Prop where
  init : SmoothVec r U fun θ => (M θ).init
  trans : ∀ t < T, ∀ i j, ContDiffOn ℝ r (fun θ => (M θ).trans t i j) U
  lik : ∀ t < T, ∀ j, ContDiffOn ℝ r (fun θ => (M θ).lik t j) U

namespace SmoothHMM

variable {T : ℕ} {M : E → HMM (Fin (n + 1))}

theorem mono (h : SmoothHMM r U T M) {t : ℕ} (ht : t ≤ T) : SmoothHMM r U t M :=
  ⟨h.init, fun s hs => h.trans s (hs.trans_le ht), fun s hs => h.lik s (hs.trans_le ht)⟩

theorem joint (h : SmoothHMM r U T M) (x : Fin (T + 1) → Fin (n + 1)) : ContDiffOn ℝ r (fun θ => (M θ).joint T x) U :=
  (h.init _).mul (contDiffOn_prod fun t _ => (h.trans t t.2 _ _).mul (h.lik t t.2 _))

theorem evidence (h : SmoothHMM r U T M) : ContDiffOn ℝ r (fun θ => (M θ).evidence T) U :=
  ContDiffOn.sum fun x _ => h.joint x

theorem smoothJoint (h : SmoothHMM r U T M) (t : Fin (T + 1)) (k : Fin (n + 1)) :
    ContDiffOn ℝ r (fun θ => (M θ).smoothJoint T t k) U := by
  refine ContDiffOn.sum fun x _ => ?_
  by_cases hx : x t = k
  · simpa only [hx, if_true] using h.joint x
  · simpa only [hx, if_false] using contDiffOn_const

theorem smoothLaw (h : SmoothHMM r U T M) (he : ∀ θ ∈ U, (M θ).evidence T ≠ 0) (t : Fin (T + 1)) (k : Fin (n + 1)) :
    ContDiffOn ℝ r (fun θ => (M θ).smoothLaw T t k) U := (h.smoothJoint t k).div h.evidence he

theorem filterLaw (h : SmoothHMM r U T M) (he : ∀ θ ∈ U, (M θ).evidence T ≠ 0) (k : Fin (n + 1)) :
    ContDiffOn ℝ r (fun θ => (M θ).filterLaw T k) U := h.smoothLaw he (Fin.last T) k

end SmoothHMM

variable {M : E → HMM (Fin (n + 1))} {getInit : E → Inp → Fin (n + 1) → Fl}
  {getTrans : E → Inp → Fin (n + 1) → Fin (n + 1) → Fl} {getObs : E → Inp → Fin (n + 1) → Fl} {inputs : List Inp}

/-- **C106**, discrete filter. -/
theorem discrete_filter_smooth (hM : SmoothHMM r U (inputs.length - 1) M)
    (hR : ∀ θ ∈ U, Represents (M θ) (getInit θ) (getTrans θ) (getObs θ) inputs) (hV : ∀ θ ∈ U, Valid (M θ))
    (hne : inputs ≠ []) (hpos : ∀ θ ∈ U, RowsPositive (M θ) (inputs.length - 1)) (rng : Prng K) (key : Option K)
    (parallel : Bool) (states : E → List (FilterState n Inp))
    (hf : ∀ θ ∈ U, (filter rng (buildFilter (K := K) (getInit θ) (getTrans θ) (getObs θ)) inputs parallel key).result =
      .ok (states θ)) (t : ℕ) (s : E → FilterState n Inp) (hs : ∀ θ ∈ U, (states θ)[t]? = some (s θ)) :
    (∀ p : E → Fin (n + 1) → ℝ, (∀ θ ∈ U, ∀ k, (s θ).dist k = fin (p θ k)) → SmoothVec r U p) ∧
      ∀ l : E → ℝ, (∀ θ ∈ U, (s θ).logNormalizingConstant = fin (l θ)) → ContDiffOn ℝ r l U := by
  have key : ∀ θ ∈ U, t ≤ inputs.length - 1 ∧ (∀ k, (s θ).dist k = fin ((M θ).filterLaw t k)) ∧ 0 < (M θ).evidence t ∧
      (s θ).logNormalizingConstant = fin (Real.log ((M θ).evidence t)) := fun θ hθ => by
    obtain ⟨st, h1, h2, h3⟩ := discrete_filter_exact (hR θ hθ) (hV θ hθ) hne (hpos θ hθ) rng key parallel
    rw [hf θ hθ] at h1
    obtain rfl := Except.ok.inj h1
    obtain ⟨h4, h5, h6, -⟩ := h3 t (s θ) (hs θ hθ)
    have := (List.getElem?_eq_some_iff.mp (hs θ hθ)).1
    exact ⟨by omega, h4, h5, h6⟩
  rcases U.eq_empty_or_nonempty with rfl | ⟨θ₀, hθ₀⟩
  · exact ⟨fun p _ k => contDiffOn_empty, fun l _ => contDiffOn_empty⟩
  have h := hM.mono (key θ₀ hθ₀).1
  refine ⟨fun p hp k => (h.filterLaw (fun θ hθ => (key θ hθ).2.2.1.ne') k).congr fun θ hθ => ?_,
    fun l hl => (h.evidence.log fun θ hθ => (key θ hθ).2.2.1.ne').congr fun θ hθ => ?_⟩
  · have := (key θ hθ).2.1 k
    rw [hp θ hθ, Fl.fin.injEq] at this
    exact this
  · have := (key θ hθ).2.2.2
    rw [hl θ hθ, Fl.fin.injEq] at this
    exact this

/-- **C106**, discrete smoother. -/
theorem discrete_smoother_smooth {T : ℕ} (hM : SmoothHMM r U T M)
    (hR : ∀ θ ∈ U, Represents (M θ) (getInit θ) (getTrans θ) (getObs θ) inputs) (hV : ∀ θ ∈ U, Valid (M θ))
    (hT : inputs.length = T + 1) (hT1 : 1 ≤ T) (hpos : ∀ θ ∈ U, RowsPositive (M θ) T)
    (hreach : ∀ θ ∈ U, AllReachable (M θ) T) (rng rng' : Prng K) (key key' : Option K) (parallel parallel' : Bool)
    (dummy : Inp → Inp) (filterStates : E → List (FilterState n Inp))
    (hf : ∀ θ ∈ U, (filter rng (buildFilter (K := K) (getInit θ) (getTrans θ) (getObs θ)) inputs parallel key).result =
      .ok (filterStates θ)) (states : E → List (SmootherState n Inp))
    (hsm : ∀ θ ∈ U, (smoother rng' FilterState.modelInputs (fun u => .ok (dummy u))
        (buildSmoother dummy (getTrans θ)) (filterStates θ) none parallel' key').result = .ok (states θ))
    (t : ℕ) (s : E → SmootherState n Inp) (hs : ∀ θ ∈ U, (states θ)[t]? = some (s θ))
    (p : E → Fin (n + 1) → ℝ) (hp : ∀ θ ∈ U, ∀ k, (s θ).dist k = fin (p θ k)) : SmoothVec r U p := by
  have key : ∀ θ ∈ U, ∃ ht : t < T + 1, (∀ k, (s θ).dist k = fin ((M θ).smoothLaw T ⟨t, ht⟩ k)) ∧
      0 < (M θ).evidence T := fun θ hθ => by
    obtain ⟨st, h1, h2, h3⟩ := discrete_smoother_exact (hR θ hθ) (hV θ hθ) T hT hT1 (hpos θ hθ) (hreach θ hθ) rng rng' key
      key' parallel parallel' dummy (filterStates θ) (hf θ hθ)
    rw [hsm θ hθ] at h1
    obtain rfl := Except.ok.inj h1
    have ht : t < T + 1 := by
      have := (List.getElem?_eq_some_iff.mp (hs θ hθ)).1
      omega
    obtain ⟨fs, h4, h5, h6⟩ := discrete_filter_exact (hR θ hθ) (hV θ hθ) (by rintro rfl; simp at hT)
      (by rw [hT]; exact hpos θ hθ) rng key parallel
    obtain ⟨f, hf'⟩ : ∃ f, fs[T]? = some f := ⟨_, List.getElem?_eq_getElem (by omega)⟩
    exact ⟨ht, (h3 t ht (s θ) (hs θ hθ)).1, (h6 T f hf').2.1⟩
  rcases U.eq_empty_or_nonempty with rfl | ⟨θ₀, hθ₀⟩
  · exact fun k => contDiffOn_empty
  obtain ⟨ht, -⟩ := key θ₀ hθ₀
  intro k
  refine (hM.smoothLaw (fun θ hθ => (key θ hθ).2.2.ne') ⟨t, ht⟩ k).congr fun θ hθ => ?_
  obtain ⟨_, h1, _⟩ := key θ hθ
  have := h1 k
  rw [hp θ hθ, Fl.fin.injEq] at this
  exact this

/-- Two states that are left with probability `1 - θ`. -/
def twoState (θ : ℝ) : HMM (Fin 2) where
  init _ := 1 / 2
  trans _ i j := if i = j then θ else 1 - θ
  lik _ _ := 1

/-- Non-vacuity: for `0 < θ < 1` the model satisfies all conditions, for every number of steps. -/
theorem twoState_smooth (T : ℕ) : SmoothHMM r (Set.Ioo 0 1) T twoState ∧ ∀ θ ∈ Set.Ioo (0 : ℝ) 1,
    Valid (n := 1) (twoState θ) ∧ RowsPositive (n := 1) (twoState θ) T ∧ AllReachable (n := 1) (twoState θ) T := by
  refine ⟨⟨fun _ => contDiffOn_const, fun t _ i j => ?_, fun _ _ _ => contDiffOn_const⟩, fun θ hθ => ⟨⟨?_, ?_, ?_, ?_⟩, ?_, ?_⟩⟩
  · by_cases h : i = j
    · simp only [twoState, h, if_true]
      exact contDiffOn_id
    · simp only [twoState, h, if_false]
      exact contDiffOn_const.sub contDiffOn_id
  · intro j; norm_num [twoState]
  · norm_num [twoState]
  · intro t i j
    simp only [twoState]
    split_ifs
    exacts [hθ.1.le, by linarith [hθ.2]]
  · intro t i
    fin_cases i <;> simp [twoState]
  · intro t _ i
    fin_cases i <;> simp [twoState]
  · have h : ∀ t j, (twoState θ).filterJoint t j = 1 / 2 := by
      intro t
      induction t with
      | zero => intro j; rw [HMM.filterJoint_zero]; rfl
      | succ t ih =>
        intro j
        rw [HMM.filterJoint_succ]
        simp only [ih, HMM.stepMat]
        fin_cases j <;> simp [twoState] <;> ring
    intro t _ j
    simp only [h]
    fin_cases j <;> simp [twoState] <;> nlinarith [hθ.1, hθ.2]

end

end Cuthbert.Discrete
