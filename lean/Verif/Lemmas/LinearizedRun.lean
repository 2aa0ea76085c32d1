import Verif.Props.Linearize
import Verif.Props.KalmanExact
import Verif.Spec.FeynmanKac

/-!
# Runs of the linearised filters
-/

namespace Cuthbert
open MeasureTheory Matrix Cuthbert.Spec
open scoped ENNReal

noncomputable section

set_option linter.unusedSectionVars false

/-! ## Maps between filters -/

section
variable {Inp K S S' : Type*}

/-- A map that commutes with the three functions of two filters maps the states of one to those of the
other, in both modes. -/
theorem filter_map_on (rng : Prng K) (q : S → S') (f : FilterObj Inp K S) (g : FilterObj Inp K S')
    (inputs : List Inp) (h0 : ∀ u k, inputs.head? = some u → q (f.initPrepare u k) = g.initPrepare u k)
    (h1 : ∀ u ∈ inputs.tail, ∀ k, q (f.filterPrepare u k) = g.filterPrepare u k)
    (h2 : ∀ a b, q (f.filterCombine a b) = g.filterCombine (q a) (q b))
    (parallel : Bool) (key : Option K) :
    (filter rng f inputs parallel key).result.map (List.map q) =
      (filter rng g inputs parallel key).result := by
  cases inputs with
  | nil => rfl
  | cons u us =>
    have h0 : ∀ k, q (f.initPrepare u k) = g.initPrepare u k := fun k => h0 u k rfl
    have h1 : ∀ u ∈ us, ∀ k, q (f.filterPrepare u k) = g.filterPrepare u k := h1
    have he : (filterElems rng f us key).map q = filterElems rng g us key := by
      unfold filterElems
      rw [List.map_zipWith]
      refine List.ext_getElem (by simp) fun i hi hi' => ?_
      rw [List.getElem_zipWith, List.getElem_zipWith]
      exact h1 _ (List.getElem_mem _) _
    cases parallel with
    | false =>
      rw [filter_sequential_eq, filter_sequential_eq]
      simp only [Except.map]
      rw [runningFold_map f.filterCombine g.filterCombine q (fun _ => True) (fun _ _ _ _ => trivial)
        (fun a b _ _ => h2 a b) _ _ fun _ _ => trivial, h0, he]
    | true =>
      rw [filter_parallel_eq, filter_parallel_eq]
      simp only [Except.map]
      rw [(associativeScan_map f.filterCombine g.filterCombine q (fun _ => True) (fun _ _ _ _ => trivial)
        (fun a b _ _ => h2 a b) _ fun _ _ => trivial).1, List.map_cons, h0, he]

theorem filter_map (rng : Prng K) (q : S → S') (f : FilterObj Inp K S) (g : FilterObj Inp K S')
    (h0 : ∀ u k, q (f.initPrepare u k) = g.initPrepare u k)
    (h1 : ∀ u k, q (f.filterPrepare u k) = g.filterPrepare u k)
    (h2 : ∀ a b, q (f.filterCombine a b) = g.filterCombine (q a) (q b))
    (inputs : List Inp) (parallel : Bool) (key : Option K) :
    (filter rng f inputs parallel key).result.map (List.map q) =
      (filter rng g inputs parallel key).result :=
  filter_map_on rng q f g inputs (fun u k _ => h0 u k) (fun u _ k => h1 u k) h2 parallel key

end

/-! ## Feynman-Kac expectations -/

section
variable {E : Type*} [MeasurableSpace E]

theorem fkPathExp_snoc (ss : List (FKStep E)) (s : FKStep E) (φ : E → ℝ≥0∞) : ∀ x : E,
    fkPathExp (ss ++ [s]) (fun p => φ (p (ss.length + 1))) x =
      fkPathExp ss (fun p => ∫⁻ x', s.pot (p ss.length) x' * φ x' ∂s.kernel (p ss.length)) x := by
  induction ss with
  | nil => intro x; rfl
  | cons s' ss ih =>
    intro x
    simp only [List.cons_append, fkPathExp, List.length_cons]
    refine lintegral_congr fun x' => ?_
    congr 1
    exact ih x'

theorem fkExp_snoc (μ : Measure E) (ss : List (FKStep E)) (s : FKStep E) (φ : E → ℝ≥0∞) :
    fkExp μ (ss ++ [s]) (fun p => φ (p (ss.length + 1))) =
      fkExp μ ss (fun p => ∫⁻ x', s.pot (p ss.length) x' * φ x' ∂s.kernel (p ss.length)) :=
  lintegral_congr fun x => fkPathExp_snoc ss s φ x

end

variable {nx ny : ℕ}

theorem pathExp_eq_fk (ss : List (Step nx ny)) : ∀ (f : (ℕ → Fin nx → ℝ) → ℝ≥0∞) (x : Fin nx → ℝ),
    pathExp ss f x = fkPathExp (ss.map Step.toFK) f x := by
  induction ss with
  | nil => intro f x; rfl
  | cons s ss ih =>
    intro f x
    simp only [pathExp, List.map_cons, fkPathExp, Step.toFK]
    exact lintegral_congr fun x' => by rw [ih]

/-- Linear-Gaussian state-space models are the special case. -/
theorem jointExp_eq_fk (m0 : Fin nx → ℝ) (L0 : Matrix (Fin nx) (Fin nx) ℝ) (ss : List (Step nx ny))
    (f : (ℕ → Fin nx → ℝ) → ℝ≥0∞) :
    jointExp m0 L0 ss f = fkExp (gauss m0 L0) (ss.map Step.toFK) f :=
  lintegral_congr fun x => pathExp_eq_fk ss f x

namespace Linearize
open Kalman

variable {Inp K : Type*} {ny' : ℕ}

/-! ## One step -/

/-- The state holds the filtering law `k`. -/
structure Holds (s : LState nx Inp) (k : KF nx) : Prop where
  mean : s.mean = some k.m
  cov : ∃ L, s.cholCov = some L ∧ L * Lᵀ = k.P
  ell : s.logNormalizingConstant = some k.l

theorem dummyElem_mean (D : Dummies nx) (m : Fin nx → ℝ) (L : Matrix (Fin nx) (Fin nx) ℝ) (l : Option ℝ)
    (u : Inp) (mp : Option (Fin nx → ℝ)) : (dummyElem D (some m) L l u mp).mean = some m := rfl

theorem dummyElem_cholCov (D : Dummies nx) (m : Fin nx → ℝ) (L : Matrix (Fin nx) (Fin nx) ℝ) (l : Option ℝ)
    (u : Inp) (mp : Option (Fin nx → ℝ)) : (dummyElem D (some m) L l u mp).cholCov = some L := rfl

theorem dummyElem_ell (D : Dummies nx) (m : Fin nx → ℝ) (L : Matrix (Fin nx) (Fin nx) ℝ) (l : Option ℝ)
    (u : Inp) (mp : Option (Fin nx → ℝ)) :
    (dummyElem D (some m) L l u mp).logNormalizingConstant = l := rfl

/-- Predict and update with given parameters. -/
theorem step_holds (qr : QR) (D : Dummies nx) (s₁ : LState nx Inp) (u : Inp) (k : KF nx) (h : Holds s₁ k)
    (s : Step nx ny') (hd : (innovCov (s.F * k.P * s.Fᵀ + s.cholQ * s.cholQᵀ) (obsH s.y s.H) s.R).det ≠ 0) :
    Holds (updateState qr D s₁ (predictState qr D s₁ u (some (s.F, s.c, s.cholQ))) u
      (some ⟨s.H, s.d, s.cholR, s.y⟩)) (kfStep k s) ∧
    (updateState qr D s₁ (predictState qr D s₁ u (some (s.F, s.c, s.cholQ))) u
      (some ⟨s.H, s.d, s.cholR, s.y⟩)).modelInputs = u ∧
    (updateState qr D s₁ (predictState qr D s₁ u (some (s.F, s.c, s.cholQ))) u
      (some ⟨s.H, s.d, s.cholR, s.y⟩)).meanPrev = s₁.mean := by
  obtain ⟨hm, ⟨L, hL, hLP⟩, hl⟩ := h
  have hpr : predictState qr D s₁ u (some (s.F, s.c, s.cholQ)) =
      dummyElem D (some (predict qr k.m L s.F s.c s.cholQ).1) (predict qr k.m L s.F s.c s.cholQ).2
        (some k.l) u (some k.m) := by
    simp only [predictState, hm, hL, hl]
  have hg := predict_gram qr k.m L s.F s.c s.cholQ
  rw [hLP] at hg
  rw [← hg] at hd
  obtain ⟨u1, u2, -, u4⟩ := update_eq qr (predict qr k.m L s.F s.c s.cholQ).1
    (predict qr k.m L s.F s.c s.cholQ).2 s.H s.d s.cholR s.y 0 hd
  have hup : updateState qr D s₁ (predictState qr D s₁ u (some (s.F, s.c, s.cholQ))) u
      (some ⟨s.H, s.d, s.cholR, s.y⟩) = dummyElem D (some (kfStep k s).m)
        (update qr (predict qr k.m L s.F s.c s.cholQ).1 (predict qr k.m L s.F s.c s.cholQ).2 s.H s.d s.cholR
          s.y).chol (some (kfStep k s).l) u (some k.m) := by
    rw [hpr]
    simp only [updateState, dummyElem_mean, dummyElem_cholCov, hl, hm]
    rw [u1, u4, hg]
    simp only [add_zero, Option.bind_eq_bind, Option.bind_some, Option.pure_def]
    rfl
  rw [hup, hm]
  refine ⟨⟨rfl, ⟨_, rfl, ?_⟩, rfl⟩, rfl, rfl⟩
  rw [u2, hg]
  rfl

/-- The same in terms of measures. -/
theorem step_exact (k : KF nx) (s : Step nx ny') (hR : s.R.det ≠ 0) (L L' : Matrix (Fin nx) (Fin nx) ℝ)
    (hL : L * Lᵀ = k.P) (hL' : L' * L'ᵀ = (kfStep k s).P) (μ : Measure (Fin nx → ℝ))
    (ss : List (FKStep (Fin nx → ℝ)))
    (h : ∀ φ : (Fin nx → ℝ) → ℝ≥0∞, Measurable φ → fkExp μ ss (fun p => φ (p ss.length)) =
      ENNReal.ofReal (Real.exp k.l) * ∫⁻ x, φ x ∂gauss k.m L)
    (φ : (Fin nx → ℝ) → ℝ≥0∞) (hφ : Measurable φ) :
    fkExp μ (ss ++ [s.toFK]) (fun p => φ (p (ss.length + 1))) =
      ENNReal.ofReal (Real.exp (kfStep k s).l) * ∫⁻ x, φ x ∂gauss (kfStep k s).m L' := by
  have hm : Measurable fun x => ∫⁻ x', s.toFK.pot x x' * φ x' ∂s.toFK.kernel x := by
    have hf : Measurable fun p : (ℕ → Fin nx → ℝ) => φ (p 1) := hφ.comp (measurable_pi_apply 1)
    exact measurable_pathExp' [s] hf
  rw [fkExp_snoc, h _ hm]
  have h1 := one_step k.m k.P k.l L hL s hR L' hL' hφ
  simp only [Step.toFK]
  rw [h1, ← mul_assoc, ← ENNReal.ofReal_mul (Real.exp_nonneg _), ← Real.exp_add, add_sub_cancel]

end Linearize

end

end Cuthbert
