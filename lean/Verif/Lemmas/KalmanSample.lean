import Verif.Lemmas.KalmanSmooth
import Mathlib.MeasureTheory.Constructions.Pi

/-!
# Lemmas about the backward trajectory sampler
-/

namespace Cuthbert.Kalman
open MeasureTheory Matrix Cuthbert Cuthbert.Spec
open scoped ENNReal

noncomputable section

set_option linter.unusedSectionVars false

variable {nx ny : ℕ} {Inp K : Type*}

theorem samplingOperatorNan_assoc {N : ℕ} (a b c : Option (SamplerElem nx N)) :
    samplingOperatorNan (samplingOperatorNan a b) c = samplingOperatorNan a (samplingOperatorNan b c) := by
  cases a <;> cases b <;> cases c <;> simp only [samplingOperatorNan]
  simp only [samplingOperator, Matrix.mul_assoc, Matrix.add_mul, Matrix.transpose_mul, add_assoc]

/-- The path drawn backwards from given noise. -/
def draw (mT : Fin nx → ℝ) (LT : Matrix (Fin nx) (Fin nx) ℝ) :
    (bs : List (BStep nx)) → (Fin (bs.length + 1) → Fin nx → ℝ) → ℕ → Fin nx → ℝ
  | [], ω => fun _ => mT + LT *ᵥ ω 0
  | b :: bs, ω =>
    let p := draw mT LT bs fun i => ω i.succ
    pathCons (b.E *ᵥ p 0 + b.g + b.D *ᵥ ω 0) p

theorem measurable_draw (mT : Fin nx → ℝ) (LT : Matrix (Fin nx) (Fin nx) ℝ) (bs : List (BStep nx)) :
    Measurable (draw mT LT bs) := by
  induction bs with
  | nil =>
    refine measurable_pi_lambda _ fun _ => ?_
    exact (measurable_affine mT LT).comp (measurable_pi_apply 0)
  | cons b bs ih =>
    have hs : Measurable fun ω : Fin ((b :: bs).length + 1) → Fin nx → ℝ => fun i : Fin (bs.length + 1) =>
        ω i.succ := measurable_pi_lambda _ fun i => measurable_pi_apply _
    have hp : Measurable fun ω : Fin ((b :: bs).length + 1) → Fin nx → ℝ =>
        draw mT LT bs fun i => ω i.succ := ih.comp hs
    have h0 : Measurable fun ω : Fin ((b :: bs).length + 1) → Fin nx → ℝ =>
        b.E *ᵥ (draw mT LT bs fun i => ω i.succ) 0 + b.g + b.D *ᵥ ω 0 :=
      (measurable_mean_kernel b.E b.g ((measurable_pi_apply 0).comp hp)).add
        ((measurable_mulVec b.D).comp (measurable_pi_apply 0))
    exact measurable_pathCons h0 hp

/-- The backward expectation is an expectation over independent standard normals. -/
theorem backExp_draw (mT : Fin nx → ℝ) (LT : Matrix (Fin nx) (Fin nx) ℝ) (bs : List (BStep nx)) :
    ∀ {f : (ℕ → Fin nx → ℝ) → ℝ≥0∞}, Measurable f → backExp mT LT bs f =
      ∫⁻ ω, f (draw mT LT bs ω) ∂Measure.pi fun _ => stdNormal (Fin nx) := by
  induction bs with
  | nil =>
    intro f hf
    have hf0 : Measurable fun x : Fin nx → ℝ => f fun _ : ℕ => x :=
      hf.comp (measurable_pi_lambda _ fun _ => measurable_id)
    have hg : Measurable fun ε : Fin nx → ℝ => f fun _ : ℕ => mT + LT *ᵥ ε :=
      hf0.comp (measurable_affine mT LT)
    rw [backExp, lintegral_gauss _ _ hf0]
    have h := (measurePreserving_eval (fun _ : Fin (([] : List (BStep nx)).length + 1) =>
      stdNormal (Fin nx)) 0).lintegral_comp hg
    rw [← h]
    rfl
  | cons b bs ih =>
    intro f hf
    rw [backExp, ih (measurable_back' b hf)]
    have hmp := measurePreserving_piFinSuccAbove (fun _ : Fin ((b :: bs).length + 1) =>
      stdNormal (Fin nx)) 0
    obtain ⟨g, hg⟩ : ∃ g : (Fin nx → ℝ) × (Fin (bs.length + 1) → Fin nx → ℝ) → ℝ≥0∞, g = fun q =>
      f (pathCons (b.E *ᵥ draw mT LT bs q.2 0 + b.g + b.D *ᵥ q.1) (draw mT LT bs q.2)) := ⟨_, rfl⟩
    have hgm : Measurable g := by
      rw [hg]
      have hp : Measurable fun q : (Fin nx → ℝ) × (Fin (bs.length + 1) → Fin nx → ℝ) =>
        draw mT LT bs q.2 := (measurable_draw mT LT bs).comp measurable_snd
      have h0 : Measurable fun q : (Fin nx → ℝ) × (Fin (bs.length + 1) → Fin nx → ℝ) =>
          b.E *ᵥ draw mT LT bs q.2 0 + b.g + b.D *ᵥ q.1 :=
        (measurable_mean_kernel b.E b.g ((measurable_pi_apply 0).comp hp)).add
          ((measurable_mulVec b.D).comp measurable_fst)
      exact hf.comp (measurable_pathCons h0 hp)
    have h1 := hmp.lintegral_comp hgm
    have h2 : ∀ ω : Fin ((b :: bs).length + 1) → Fin nx → ℝ,
        g (MeasurableEquiv.piFinSuccAbove (fun _ => Fin nx → ℝ) 0 ω) = f (draw mT LT (b :: bs) ω) := by
      intro ω
      rw [hg]
      rfl
    have h1' := (lintegral_congr h2).symm.trans h1
    rw [h1']
    have h3 := lintegral_prod_symm (μ := stdNormal (Fin nx))
      (ν := Measure.pi fun _ : Fin (bs.length + 1) => stdNormal (Fin nx)) g hgm.aemeasurable
    refine Eq.trans ?_ h3.symm
    refine lintegral_congr fun ω => ?_
    have h4 : Measurable fun x : Fin nx → ℝ => f (pathCons x (draw mT LT bs ω)) :=
      hf.comp (measurable_pathCons measurable_id measurable_const)
    rw [lintegral_gauss _ _ h4, hg]

/-- What a finite scan element of the sampler contains. -/
theorem samplerParams_eq (qr : QR) {N : ℕ} (mT : Fin nx → ℝ) (LT : Matrix (Fin nx) (Fin nx) ℝ)
    (epsT : Matrix (Fin N) (Fin nx) ℝ) : ∀ (steps : List (SamplerInput nx)) (bs : List (BStep nx))
    (eps : List (Matrix (Fin N) (Fin nx) ℝ)),
    List.Forall₂ (fun i b => smootherParams qr i.m i.cholP i.F i.c i.cholQ = some ⟨b.g, b.E, b.D⟩) steps bs →
    samplerParams qr steps mT LT eps epsT =
      List.zipWith (fun b e => some (⟨b.E, (Matrix.of fun _ => b.g) + e * b.Dᵀ⟩ : SamplerElem nx N)) bs eps ++
        [some (samplerFinal mT LT epsT)] := by
  intro steps bs eps h
  rw [samplerParams]
  congr 1
  induction h generalizing eps with
  | nil => rfl
  | cons h _ ih =>
    cases eps with
    | nil => rfl
    | cons e eps =>
      rw [List.zipWith_cons_cons, List.zipWith_cons_cons, ih eps, samplerInterm, h]
      rfl

/-- The backward recursion, row by row. -/
theorem backFold_draw {N : ℕ} (mT : Fin nx → ℝ) (LT : Matrix (Fin nx) (Fin nx) ℝ) :
    ∀ (bs : List (BStep nx)) (ω : Fin (bs.length + 1) → Matrix (Fin N) (Fin nx) ℝ) (t : ℕ),
    t ≤ bs.length → ∃ out : SamplerElem nx N,
      (backFold (fun n c => samplingOperatorNan c n) (some (samplerFinal mT LT (ω (Fin.last _))))
        (List.zipWith (fun b e => some (⟨b.E, (Matrix.of fun _ => b.g) + e * b.Dᵀ⟩ : SamplerElem nx N)) bs
          (List.ofFn fun i : Fin bs.length => ω i.castSucc)))[t]? = some (some out) ∧
      ∀ n, out.sample n = draw mT LT bs (fun i => ω i n) t := by
  intro bs
  induction bs with
  | nil =>
    intro ω t ht
    have ht0 : t = 0 := by simpa using ht
    subst ht0
    refine ⟨samplerFinal mT LT (ω (Fin.last _)), rfl, fun n => ?_⟩
    funext i
    simp only [samplerFinal, draw, Matrix.add_apply, Matrix.of_apply, Pi.add_apply]
    rw [Matrix.mul_apply]
    congr 1
    simp only [Matrix.mulVec, dotProduct, Matrix.transpose_apply]
    refine Finset.sum_congr rfl fun j _ => ?_
    rw [mul_comm]
    rfl
  | cons b bs ih =>
    intro ω t ht
    have hlist : (List.ofFn fun i : Fin (b :: bs).length => ω i.castSucc) =
        ω 0 :: List.ofFn fun i : Fin bs.length => (fun j : Fin (bs.length + 1) => ω j.succ) i.castSucc := by
      rw [List.ofFn_succ]
      rfl
    have hlast : ω (Fin.last (b :: bs).length) = (fun j : Fin (bs.length + 1) => ω j.succ) (Fin.last _) := rfl
    rw [hlist, List.zipWith_cons_cons, hlast]
    obtain ⟨r, hr, e⟩ := backFold_cons (fun n c => samplingOperatorNan c n)
      (some (samplerFinal mT LT ((fun j : Fin (bs.length + 1) => ω j.succ) (Fin.last _))))
      (some (⟨b.E, (Matrix.of fun _ => b.g) + ω 0 * b.Dᵀ⟩ : SamplerElem nx N))
      (List.zipWith (fun b e => some (⟨b.E, (Matrix.of fun _ => b.g) + e * b.Dᵀ⟩ : SamplerElem nx N)) bs
          (List.ofFn fun i : Fin bs.length => (fun j : Fin (bs.length + 1) => ω j.succ) i.castSucc))
    rw [e]
    cases t with
    | succ t =>
      obtain ⟨out, ho, hrow⟩ := ih (fun j => ω j.succ) t (by simpa using ht)
      exact ⟨out, by rw [List.getElem?_cons_succ]; exact ho, fun n => hrow n⟩
    | zero =>
      obtain ⟨out, ho, hrow⟩ := ih (fun j => ω j.succ) 0 (Nat.zero_le _)
      rw [ho, Option.some.injEq] at hr
      subst hr
      refine ⟨samplingOperator out ⟨b.E, (Matrix.of fun _ => b.g) + ω 0 * b.Dᵀ⟩, rfl, fun n => ?_⟩
      funext i
      have hrow' : ∀ j, out.sample n j = draw mT LT bs (fun i => ω i.succ n) 0 j := fun j =>
        congrFun (hrow n) j
      simp only [samplingOperator, draw, pathCons, Matrix.add_apply, Matrix.of_apply, Pi.add_apply]
      rw [Matrix.mul_apply, Matrix.mul_apply]
      simp only [Matrix.transpose_apply, hrow', Matrix.mulVec, dotProduct]
      rw [add_assoc]
      congr 1
      · exact Finset.sum_congr rfl fun j _ => mul_comm _ _
      · congr 1
        exact Finset.sum_congr rfl fun j _ => mul_comm _ _

theorem sampleTrajectories_eq (qr : QR) {N : ℕ} (steps : List (SamplerInput nx)) (mT : Fin nx → ℝ)
    (LT : Matrix (Fin nx) (Fin nx) ℝ) (eps : List (Matrix (Fin N) (Fin nx) ℝ))
    (epsT : Matrix (Fin N) (Fin nx) ℝ) :
    sampleTrajectories qr steps mT LT eps epsT =
      backFold (fun n c => samplingOperatorNan c n) (some (samplerFinal mT LT epsT))
        (List.zipWith (fun s e => samplerInterm qr s.m s.cholP s.F s.c s.cholQ e) steps eps) := by
  rw [← runningFold_reverse, sampleTrajectories, associativeScanRev, samplerParams,
    List.reverse_append, List.reverse_singleton, List.singleton_append,
    associativeScan_eq_runningFold samplingOperatorNan (fun _ => True) (fun _ _ _ _ => trivial)
      (fun _ _ _ _ _ _ => samplingOperatorNan_assoc _ _ _) _ _ (fun _ _ => trivial)]

end

end Cuthbert.Kalman
