import Verif.Spec.ReversalLG
import Verif.Lemmas.LGSSM
import Verif.Props.Grid

/-!
# Running a linear-Gaussian model backwards
-/

namespace Cuthbert
open MeasureTheory Matrix Cuthbert.Spec
open scoped ENNReal

noncomputable section

variable {nx ny : ℕ}

/-- The step without its observation. -/
def Step.blind (s : Step nx ny) : Step nx ny := { s with y := fun _ => none }

theorem Step.blind_lik (s : Step nx ny) (x : Fin nx → ℝ) : s.blind.lik x = 1 :=
  Kalman.lik_missing _ (fun _ => rfl) x

theorem Step.lik_ne_top (s : Step nx ny) (x : Fin nx → ℝ) : s.lik x ≠ ∞ := ENNReal.ofReal_ne_top

/-- The likelihood of all observations along a path. -/
def pathLik (ss : List (Step nx ny)) (p : ℕ → Fin nx → ℝ) : ℝ≥0∞ :=
  ∏ t ∈ Finset.range ss.length, (ss[t]?.elim 1 fun s => s.lik (p (t + 1)))

theorem pathLik_cons (s : Step nx ny) (ss : List (Step nx ny)) (x : Fin nx → ℝ) (p : ℕ → Fin nx → ℝ) :
    pathLik (s :: ss) (pathCons x p) = s.lik (p 0) * pathLik ss p := by
  rw [pathLik, List.length_cons, Finset.prod_range_succ', mul_comm]
  simp [pathLik, pathCons]

theorem measurable_pathLik (ss : List (Step nx ny)) : Measurable (pathLik ss) := by
  refine Finset.measurable_fun_prod _ fun t _ => ?_
  cases h : ss[t]? with
  | none => exact measurable_const
  | some s => exact s.measurable_lik.comp (measurable_pi_apply _)

theorem pathExp_mul_const (ss : List (Step nx ny)) (a : ℝ≥0∞) (ha : a ≠ ∞) :
    ∀ (f : (ℕ → Fin nx → ℝ) → ℝ≥0∞) (x : Fin nx → ℝ), pathExp ss (fun p => a * f p) x = a * pathExp ss f x := by
  induction ss with
  | nil => intros; rfl
  | cons s ss ih =>
    intro f x
    simp only [pathExp, ih]
    rw [← lintegral_const_mul' _ _ ha]
    refine lintegral_congr fun x' => ?_
    ring

/-- The likelihood of the observations can be put into the function integrated. -/
theorem pathExp_blind (ss : List (Step nx ny)) :
    ∀ (f : (ℕ → Fin nx → ℝ) → ℝ≥0∞) (x : Fin nx → ℝ),
      pathExp ss f x = pathExp (ss.map Step.blind) (fun p => pathLik ss p * f p) x := by
  induction ss with
  | nil => intro f x; simp [pathExp, pathLik]
  | cons s ss ih =>
    intro f x
    simp only [List.map_cons, pathExp, Step.blind_lik, one_mul, pathLik_cons]
    refine lintegral_congr fun x' => ?_
    rw [ih, ← pathExp_mul_const _ _ (s.lik_ne_top x')]
    refine pathExp_congr_head _ _ _ _ fun p hp => ?_
    rw [hp, mul_assoc]

/-- Put `x` after time `n` of a path. -/
def pathSnoc (n : ℕ) (p : ℕ → Fin nx → ℝ) (x : Fin nx → ℝ) : ℕ → Fin nx → ℝ := fun t => if t ≤ n then p t else x

theorem pathExp_snoc (ss : List (Step nx ny)) (s : Step nx ny) :
    ∀ (f : (ℕ → Fin nx → ℝ) → ℝ≥0∞) (x : Fin nx → ℝ), pathExp (ss ++ [s]) f x =
      pathExp ss (fun p => ∫⁻ x', s.lik x' * f (pathSnoc ss.length p x')
        ∂gauss (s.F *ᵥ p ss.length + s.c) s.cholQ) x := by
  induction ss with
  | nil =>
    intro f x
    simp only [List.nil_append, pathExp, List.length_nil]
    refine lintegral_congr fun x' => ?_
    congr 2
    funext t
    cases t <;> simp [pathCons, pathSnoc]
  | cons s₀ ss ih =>
    intro f x
    simp only [List.cons_append, pathExp]
    refine lintegral_congr fun x₁ => ?_
    rw [ih]
    congr 2
    funext p
    refine lintegral_congr fun x' => ?_
    congr 2
    funext t
    cases t <;> simp [pathCons, pathSnoc]

theorem jointExp_chain_reversed (ss : List (Step nx ny)) :
    ∀ (ss' : List (Step nx ny)) (m : ℕ → Fin nx → ℝ) (P : ℕ → Matrix (Fin nx) (Fin nx) ℝ)
      (A₀ A₀' : Matrix (Fin nx) (Fin nx) ℝ) (_ : ss'.length = ss.length)
      (_ : ∀ s ∈ ss, ∀ x, s.lik x = 1) (_ : ∀ s ∈ ss', ∀ x, s.lik x = 1)
      (_ : A₀ * A₀ᵀ = P 0) (_ : A₀' * A₀'ᵀ = P ss.length)
      (_ : ∀ t s s', ss[t]? = some s → ss'[ss.length - 1 - t]? = some s' →
        (m (t + 1) = s.F *ᵥ m t + s.c ∧ P (t + 1) = s.F * P t * s.Fᵀ + s.cholQ * s.cholQᵀ) ∧
        (m t = s'.F *ᵥ m (t + 1) + s'.c ∧ P t = s'.F * P (t + 1) * s'.Fᵀ + s'.cholQ * s'.cholQᵀ) ∧
        s'.F * P (t + 1) = P t * s.Fᵀ)
      {f : (ℕ → Fin nx → ℝ) → ℝ≥0∞} (_ : Measurable f),
      jointExp (m 0) A₀ ss f = jointExp (m ss.length) A₀' ss' fun p => f fun t => p (ss.length - t) := by
  induction ss with
  | nil =>
    intro ss' m P A₀ A₀' hl _ _ h0 h0' _ f _
    obtain rfl : ss' = [] := List.length_eq_zero_iff.1 hl
    simp only [jointExp, pathExp, List.length_nil]
    rw [gauss_eq_of_gram (m 0) A₀ A₀' (h0.trans h0'.symm)]
  | cons s ss ih =>
    intro ss' m P A₀ A₀' hl hs hs' h0 h0' hd f hf
    rcases List.eq_nil_or_concat ss' with rfl | ⟨ss₁, b, rfl⟩
    · simp at hl
    simp only [List.concat_eq_append] at *
    have hl₁ : ss₁.length = ss.length := by simpa using hl
    obtain ⟨⟨d1, d2⟩, ⟨d3, d4⟩, d5⟩ := hd 0 s b rfl (by simp [hl₁])
    have hg : IsGram (P 1) := by
      rw [d2, ← h0]
      exact ((isGram_of A₀).conj s.F).add (isGram_of _)
    obtain ⟨W, hW⟩ := hg.exists_sqrt
    have hm : Measurable fun q : (Fin nx → ℝ) × (Fin nx → ℝ) => pathExp ss (fun p => f (pathCons q.2 p)) q.1 :=
      measurable_pathExp ss (f := fun r : ((Fin nx → ℝ) × (Fin nx → ℝ)) × (ℕ → Fin nx → ℝ) => f (pathCons r.1.2 r.2))
        (hf.comp (measurable_pathCons (measurable_snd.comp measurable_fst) measurable_snd)) measurable_fst
    have hfc : Measurable fun q : (Fin nx → ℝ) × (ℕ → Fin nx → ℝ) => f (pathCons q.1 q.2) :=
      hf.comp (measurable_pathCons measurable_fst measurable_snd)
    have hgm : Measurable fun p : ℕ → Fin nx → ℝ => ∫⁻ x₀, f (pathCons x₀ p) ∂gauss (b.F *ᵥ p 0 + b.c) b.cholQ :=
      measurable_lintegral_kernel (fun p : ℕ → Fin nx → ℝ => b.F *ᵥ p 0 + b.c)
        (measurable_mean_kernel b.F b.c (measurable_pi_apply 0)) b.cholQ
        (f := fun q : (ℕ → Fin nx → ℝ) × (Fin nx → ℝ) => f (pathCons q.2 q.1))
        (hf.comp (measurable_pathCons measurable_snd measurable_fst))
    have e1 : jointExp (m 0) A₀ (s :: ss) f =
        jointExp (m 1) W ss fun p => ∫⁻ x₀, f (pathCons x₀ p) ∂gauss (b.F *ᵥ p 0 + b.c) b.cholQ := by
      simp only [jointExp, pathExp, hs s List.mem_cons_self, one_mul]
      rw [gauss_disint (m 0) A₀ s.F s.c s.cholQ W b.F b.cholQ (by rw [hW, h0, d2]) (by rw [hW, h0, d5])
        (by rw [hW, h0]; exact d4.symm) (f := fun q => pathExp ss (fun p => f (pathCons q.2 p)) q.1) hm, ← d1]
      refine lintegral_congr fun x₁ => ?_
      dsimp only
      rw [pathExp_swap ss _ (f := fun q => f (pathCons q.1 q.2)) hfc]
      refine pathExp_congr_head _ _ _ _ fun p hp => ?_
      rw [hp]
      congr 2
      have : m 0 = b.F *ᵥ m 1 + b.c := d3
      rw [Matrix.mulVec_sub, this]
      abel
    have e2 := ih ss₁ (fun t => m (t + 1)) (fun t => P (t + 1)) W A₀' hl₁ (fun s' h => hs s' (List.mem_cons_of_mem _ h))
      (fun s' h => hs' s' (List.mem_append_left _ h)) hW h0' (fun t s₁ s₂ h1 h2 => hd (t + 1) s₁ s₂ h1 (by
        have ht : t < ss.length := (List.getElem?_eq_some_iff.1 h1).1
        rw [List.length_cons, show ss.length + 1 - 1 - (t + 1) = ss.length - 1 - t by omega,
          List.getElem?_append_left (by omega)]
        exact h2)) hgm
    rw [e1]
    refine Eq.trans e2 ?_
    simp only [jointExp, List.length_cons]
    refine lintegral_congr fun x => ?_
    rw [pathExp_snoc]
    congr 1
    funext p
    rw [hl₁, Nat.sub_zero]
    refine lintegral_congr fun x₀ => ?_
    rw [hs' b (by simp), one_mul]
    congr 1
    funext t
    cases t with
    | zero => simp [pathCons, pathSnoc]
    | succ t => simp [pathCons, pathSnoc]

variable {m : ℕ → Fin nx → ℝ} {P : ℕ → Matrix (Fin nx) (Fin nx) ℝ} {m₀ m₀' : Fin nx → ℝ}
  {A₀ A₀' : Matrix (Fin nx) (Fin nx) ℝ} {ss ss' : List (Step nx ny)}

theorem Spec.ReversesLG.pathLik (h : ReversesLG m P m₀ A₀ ss m₀' A₀' ss') (hne : ss ≠ []) (p : ℕ → Fin nx → ℝ) :
    pathLik ss (fun t => p (ss.length - t)) = pathLik ss' p := by
  obtain ⟨n, hn⟩ : ∃ n, ss.length = n + 1 := ⟨ss.length - 1, by have := List.length_pos_iff.2 hne; omega⟩
  have g1 : ss[n]?.elim 1 (fun s => s.lik (p (ss.length - (n + 1)))) = (1 : ℝ≥0∞) := by
    cases e : ss[n]? with
    | none => rfl
    | some s => exact Kalman.lik_missing s (h.last s (by rw [hn]; exact e)) _
  have g2 : ss'[n]?.elim 1 (fun s => s.lik (p (n + 1))) = (1 : ℝ≥0∞) := by
    cases e : ss'[n]? with
    | none => rfl
    | some s => exact Kalman.lik_missing s (h.last' s (by rw [hn]; exact e)) _
  rw [Cuthbert.pathLik, Cuthbert.pathLik, h.length]
  conv_lhs => rw [hn]
  conv_rhs => rw [hn]
  rw [Finset.prod_range_succ, Finset.prod_range_succ, g2]
  rw [hn] at g1
  rw [g1, mul_one, mul_one, ← Finset.prod_range_reflect]
  refine Finset.prod_congr rfl fun t ht => ?_
  have ht' : t < n := Finset.mem_range.1 ht
  obtain ⟨s, hs⟩ : ∃ s, ss[n - 1 - t]? = some s := ⟨_, List.getElem?_eq_getElem (by omega)⟩
  obtain ⟨s', hs'⟩ : ∃ s', ss'[t]? = some s' := ⟨_, List.getElem?_eq_getElem (by rw [h.length]; omega)⟩
  rw [hs, hs']
  show s.lik _ = s'.lik _
  rw [h.lik (n - 1 - t) (by omega) s s' hs (by rw [hn, show n + 1 - 2 - (n - 1 - t) = t by omega]; exact hs')]
  congr 2
  omega

/-- The joint law of the states and the observations is the same in both directions of time. -/
theorem Spec.ReversesLG.jointExp (h : ReversesLG m P m₀ A₀ ss m₀' A₀' ss') (hne : ss ≠ [])
    {f : (ℕ → Fin nx → ℝ) → ℝ≥0∞} (hf : Measurable f) :
    jointExp m₀ A₀ ss f = jointExp m₀' A₀' ss' fun p => f fun t => p (ss.length - t) := by
  have e : ∀ (a : Fin nx → ℝ) (B : Matrix (Fin nx) (Fin nx) ℝ) (l : List (Step nx ny)) (g : (ℕ → Fin nx → ℝ) → ℝ≥0∞),
      Cuthbert.jointExp a B l g = Cuthbert.jointExp a B (l.map Step.blind) fun p => Cuthbert.pathLik l p * g p :=
    fun a B l g => lintegral_congr fun x => pathExp_blind l g x
  have hb : ∀ (l : List (Step nx ny)), ∀ s ∈ l.map Step.blind, ∀ x, s.lik x = 1 := by
    intro l s hs x
    obtain ⟨s, -, rfl⟩ := List.mem_map.1 hs
    exact s.blind_lik x
  have hm : Measurable fun p => Cuthbert.pathLik ss p * f p := (measurable_pathLik ss).mul hf
  rw [e m₀, e m₀', h.init.1, jointExp_chain_reversed (ss.map Step.blind) (ss'.map Step.blind) m P A₀ A₀'
    (by simp [h.length]) (hb _) (hb _) h.init.2 (by simpa using h.init'.2) ?_ hm,
    List.length_map, h.init'.1]
  · congr 1
    funext p
    rw [h.pathLik hne]
  · intro t s s' hs hs'
    simp only [List.length_map, List.getElem?_map, Option.map_eq_some_iff] at hs hs'
    obtain ⟨a, ha, rfl⟩ := hs
    obtain ⟨b, hb, rfl⟩ := hs'
    have ht : t < ss.length := (List.getElem?_eq_some_iff.1 ha).1
    exact ⟨h.forward t a ha, h.backward t ht b hb, h.cross t a b ha hb⟩

end

end Cuthbert
