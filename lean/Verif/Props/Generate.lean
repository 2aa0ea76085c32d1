import Verif.Spec.Generate
import Verif.Lemmas.Random
import Verif.Lemmas.Gaussian
import Verif.Props.KalmanExact

/-!
# Property C63: the model generator
-/

namespace Cuthbert
namespace Generate
open MeasureTheory ProbabilityTheory Matrix Set
open scoped ENNReal

noncomputable section

/-! ### Rearranging products -/

section Prod

variable {α β γ δ : Type*} [MeasurableSpace α] [MeasurableSpace β] [MeasurableSpace γ] [MeasurableSpace δ]
  (μ : Measure α) (ν : Measure β) (ρ : Measure γ) (τ : Measure δ) [SFinite μ] [SFinite ν] [SFinite ρ] [SFinite τ]

theorem mp_leftComm : MeasurePreserving (fun p : α × β × γ => (p.2.1, p.1, p.2.2)) (μ.prod (ν.prod ρ))
    (ν.prod (μ.prod ρ)) :=
  (measurePreserving_prodAssoc ν μ ρ).comp
    (((Measure.measurePreserving_swap (μ := μ) (ν := ν)).prod (MeasurePreserving.id ρ)).comp
      (measurePreserving_prodAssoc μ ν ρ).symm)

theorem mp_quad : MeasurePreserving (fun p : α × β × γ × δ => ((p.1, p.2.2.1), (p.2.1, p.2.2.2)))
    (μ.prod (ν.prod (ρ.prod τ))) ((μ.prod ρ).prod (ν.prod τ)) :=
  (measurePreserving_prodAssoc μ ρ (ν.prod τ)).symm.comp
    ((MeasurePreserving.id μ).prod (mp_leftComm ν ρ τ))

theorem mp_quad' : MeasurePreserving (fun p : (α × β) × γ × δ => ((p.2.1, p.1.1), (p.2.2, p.1.2)))
    ((μ.prod ν).prod (ρ.prod τ)) ((ρ.prod μ).prod (τ.prod ν)) :=
  ((Measure.measurePreserving_swap (μ := μ) (ν := ρ)).prod (Measure.measurePreserving_swap (μ := ν) (ν := τ))).comp
    ((mp_quad μ ν ρ τ).comp (measurePreserving_prodAssoc μ ν (ρ.prod τ)))

omit [SFinite μ]
variable [SigmaFinite μ]

theorem mp_pi_succ (n : ℕ) : MeasurePreserving (fun q : Fin (n + 1) → α => (q 0, fun i : Fin n => q i.succ))
    (Measure.pi fun _ => μ) (μ.prod (Measure.pi fun _ => μ)) :=
  measurePreserving_piFinSuccAbove (fun _ => μ) 0

theorem mp_pi2 : MeasurePreserving (fun q : Fin 2 → α => (q 0, q 1)) (Measure.pi fun _ => μ) (μ.prod μ) :=
  measurePreserving_finTwoArrow μ

theorem mp_pi3 : MeasurePreserving (fun q : Fin 3 → α => (q 0, q 1, q 2)) (Measure.pi fun _ => μ)
    (μ.prod (μ.prod μ)) :=
  ((MeasurePreserving.id μ).prod (mp_pi2 μ)).comp (mp_pi_succ μ 2)

theorem mp_pi4 : MeasurePreserving (fun q : Fin 4 → α => (q 0, q 1, q 2, q 3)) (Measure.pi fun _ => μ)
    (μ.prod (μ.prod (μ.prod μ))) :=
  ((MeasurePreserving.id μ).prod (mp_pi3 μ)).comp (mp_pi_succ μ 3)

theorem mp_pi5 : MeasurePreserving (fun q : Fin 5 → α => (q 0, q 1, q 2, q 3, q 4)) (Measure.pi fun _ => μ)
    (μ.prod (μ.prod (μ.prod (μ.prod μ)))) :=
  ((MeasurePreserving.id μ).prod (mp_pi4 μ)).comp (mp_pi_succ μ 4)

end Prod

instance (κ : Type*) [Fintype κ] : IsProbabilityMeasure (stdNormal κ) := by unfold stdNormal; infer_instance
instance (m n : ℕ) : IsProbabilityMeasure (unifM m n) := by unfold unifM; infer_instance
instance (m n : ℕ) : IsProbabilityMeasure (normM m n) := by unfold normM; infer_instance

variable {K : Type*} [MeasurableSpace K] {rng : GenRng K} {P : Measure K} {nx ny : ℕ}

/-! ### What holds for every draw -/

omit [MeasurableSpace K] in
/-- **C63.** Generated factors are lower triangular with entries in `[0, 1)`, for every key and every
dimension. -/
theorem cholesky_factor_lower (rng : GenRng K) (k : K) (n : ℕ) :
    IsLower (choleskyFactor rng k n) ∧ ∀ i j, 0 ≤ choleskyFactor rng k n i j ∧ choleskyFactor rng k n i j < 1 := by
  refine ⟨fun i j h => ?_, fun i j => ?_⟩
  · simp only [choleskyFactor, Matrix.of_apply]
    exact if_pos h
  · simp only [choleskyFactor, Matrix.of_apply]
    split
    · exact ⟨le_rfl, one_pos⟩
    · exact rng.uniformM_mem k n n i j

omit [MeasurableSpace K] in
theorem choleskyFactor_eq (rng : GenRng K) (k : K) (n : ℕ) :
    choleskyFactor rng k n = lower (rng.uniformM k n n) := by
  ext i j
  simp only [choleskyFactor, lower, Matrix.of_apply]
  by_cases h : i < j
  · rw [if_pos h, if_neg (not_le.2 h)]
  · rw [if_neg h, if_pos (not_lt.1 h)]

omit [MeasurableSpace K] in
/-- **C63.** `generate_lgssm` returns `T` rows. -/
theorem lgssm_length (rng : GenRng K) (k : K) (nx ny T : ℕ) : (lgssm rng k nx ny T).2.2.length = T := by
  have h : ∀ (l : List K) (x : Fin nx → ℝ), (laxScan (body (ny := ny) rng) x l).2.length = l.length := by
    intro l
    induction l with
    | nil => intro x; rfl
    | cons k ks ih => intro x; simp [laxScan, ih]
  simp only [lgssm]
  rw [h, rng.length_split]

/-- A diagonal entry of a random lower triangular matrix is almost surely not zero. -/
theorem unifM_diag (n : ℕ) : ∀ᵐ u ∂unifM n n, ∀ i, lower u i i ≠ 0 := by
  rw [ae_all_iff]
  intro i
  have h : MeasurePreserving (fun u : Fin n → Fin n → ℝ => u i i) (unifM n n) unif :=
    (measurePreserving_eval (fun _ : Fin n => unif) i).comp
      (measurePreserving_eval (fun _ : Fin n => Measure.pi fun _ : Fin n => unif) i)
  have := h.quasiMeasurePreserving.ae (p := fun x => 0 < x ∧ x < 1) unif_ae
  filter_upwards [this] with u hu
  simpa [lower] using hu.1.ne'

/-- **C63.** The diagonal of a generated factor is almost surely free of zeros, so that the factor is
nonsingular. -/
theorem cholesky_factor_diag (h : IdealGen rng P) (n : ℕ) :
    ∀ᵐ k ∂P, (∀ i, choleskyFactor rng k n i i ≠ 0) ∧ (choleskyFactor rng k n).det ≠ 0 := by
  have h1 : ∀ᵐ k ∂P, ∀ i, choleskyFactor rng k n i i ≠ 0 := by
    simp only [choleskyFactor_eq]
    exact (h.uniformM n n).quasiMeasurePreserving.ae (unifM_diag n)
  filter_upwards [h1] with k hk
  refine ⟨hk, ?_⟩
  rw [Matrix.det_of_isLowerTriangular _ fun i j hij => (cholesky_factor_lower rng k n).1 i j hij]
  exact Finset.prod_ne_zero_iff.2 fun i _ => hk i

/-! ### The law of what is generated -/

/-- The numbers drawn in one step of the scan: those of the parameters and the two noises. -/
def stepDraw (rng : GenRng K) (nx ny : ℕ) (k : K) : RawPar nx ny × (Fin nx → ℝ) × (Fin ny → ℝ) :=
  (((rng.normalM (rng.nth (rng.nth k 4 0) 3 0) nx nx, rng.normal (rng.nth (rng.nth k 4 0) 3 1) nx,
      rng.uniformM (rng.nth (rng.nth k 4 0) 3 2) nx nx),
    (rng.normalM (rng.nth (rng.nth k 4 2) 3 0) ny nx, rng.normal (rng.nth (rng.nth k 4 2) 3 1) ny,
      rng.uniformM (rng.nth (rng.nth k 4 2) 3 2) ny ny)),
    rng.normal (rng.nth k 4 1) nx, rng.normal (rng.nth k 4 3) ny)

/-- The numbers drawn in a whole run. -/
def allDraws (rng : GenRng K) (nx ny T : ℕ) (k : K) :
    (((Fin nx → ℝ) × (Fin nx → Fin nx → ℝ)) × (Fin T → RawPar nx ny)) ×
      (Fin nx → ℝ) × (Fin T → (Fin nx → ℝ) × (Fin ny → ℝ)) :=
  (((rng.normal (rng.nth (rng.nth k 5 1) 2 0) nx, rng.uniformM (rng.nth (rng.nth k 5 1) 2 1) nx nx),
    fun t => (stepDraw rng nx ny (rng.nth (rng.nth k 5 0) T t)).1),
    rng.normal (rng.nth k 5 2) nx, fun t => (stepDraw rng nx ny (rng.nth (rng.nth k 5 0) T t)).2)

theorem stepDraw_law (h : IdealGen rng P) : MeasurePreserving (stepDraw rng nx ny) P
    ((((normM nx nx).prod ((stdNormal (Fin nx)).prod (unifM nx nx))).prod
      ((normM ny nx).prod ((stdNormal (Fin ny)).prod (unifM ny ny)))).prod
        ((stdNormal (Fin nx)).prod (stdNormal (Fin ny)))) := by
  have := h.prob
  have h3 : MeasurePreserving (fun k => (rng.nth k 3 0, rng.nth k 3 1, rng.nth k 3 2)) P
      (P.prod (P.prod P)) := (mp_pi3 P).comp (h.split 3)
  have h4 : MeasurePreserving (fun k => ((rng.nth k 4 0, rng.nth k 4 2), (rng.nth k 4 1, rng.nth k 4 3))) P
      ((P.prod P).prod (P.prod P)) := (mp_quad P P P P).comp ((mp_pi4 P).comp (h.split 4))
  have hT := ((h.normalM nx nx).prod ((h.normal nx).prod (h.uniformM nx nx))).comp h3
  have hO := ((h.normalM ny nx).prod ((h.normal ny).prod (h.uniformM ny ny))).comp h3
  exact ((hT.prod hO).prod ((h.normal nx).prod (h.normal ny))).comp h4

theorem allDraws_law (h : IdealGen rng P) (T : ℕ) :
    MeasurePreserving (allDraws rng nx ny T) P ((rawLaw nx ny T).prod (noiseLaw nx ny T)) := by
  have := h.prob
  have h2 : MeasurePreserving (fun k => (rng.nth k 2 0, rng.nth k 2 1)) P (P.prod P) :=
    (mp_pi2 P).comp (h.split 2)
  have h5 : MeasurePreserving (fun k => (rng.nth k 5 0, rng.nth k 5 1, rng.nth k 5 2)) P
      (P.prod (P.prod P)) :=
    ((MeasurePreserving.id P).prod ((MeasurePreserving.id P).prod
      (measurePreserving_fst (μ := P) (ν := P.prod P)))).comp ((mp_pi5 P).comp (h.split 5))
  have hI := ((h.normal nx).prod (h.uniformM nx nx)).comp h2
  have hS := (measurePreserving_arrowProdEquivProdArrow _ _ (Fin T)
    (fun _ => ((normM nx nx).prod ((stdNormal (Fin nx)).prod (unifM nx nx))).prod
      ((normM ny nx).prod ((stdNormal (Fin ny)).prod (unifM ny ny))))
    (fun _ => (stdNormal (Fin nx)).prod (stdNormal (Fin ny)))).comp
    ((measurePreserving_pi (fun _ : Fin T => P) _ fun _ => stepDraw_law (nx := nx) (ny := ny) h).comp (h.split T))
  exact (mp_quad' _ _ _ _).comp ((hS.prod (hI.prod (h.normal nx))).comp h5)

omit [MeasurableSpace K] in
theorem body_eq (rng : GenRng K) (x : Fin nx → ℝ) (k : K) :
    body (ny := ny) rng x k =
      let r := stepDraw rng nx ny k
      let x' := (parOf r.1).F *ᵥ x + (parOf r.1).c + (parOf r.1).cholQ *ᵥ r.2.1
      (x', ⟨(parOf r.1).F, (parOf r.1).c, (parOf r.1).cholQ, (parOf r.1).H, (parOf r.1).d, (parOf r.1).cholR,
        (parOf r.1).H *ᵥ x' + (parOf r.1).d + (parOf r.1).cholR *ᵥ r.2.2⟩) := by
  have hF : (Matrix.of fun i j => 0.75 * rng.normalM (rng.nth (rng.nth k 4 0) 3 0) nx nx i j / √nx) =
      ((0.75 / √nx : ℝ) • Matrix.of (rng.normalM (rng.nth (rng.nth k 4 0) 3 0) nx nx) :
        Matrix (Fin nx) (Fin nx) ℝ) := by
    ext i j
    simp only [Matrix.of_apply, Matrix.smul_apply, smul_eq_mul]
    ring
  simp only [body, transModel, obsModel, parOf, stepDraw, choleskyFactor_eq, hF]
  rfl

omit [MeasurableSpace K] in
theorem scan_eq (rng : GenRng K) : ∀ (T : ℕ) (x : Fin nx → ℝ) (ks : Fin T → K),
    (laxScan (body (ny := ny) rng) x (List.ofFn ks)).2 =
      List.ofFn fun t =>
        let θ := fun t => parOf (stepDraw rng nx ny (ks t)).1
        ⟨(θ t).F, (θ t).c, (θ t).cholQ, (θ t).H, (θ t).d, (θ t).cholR,
          simulate T θ x (fun t => (stepDraw rng nx ny (ks t)).2) t⟩
  | 0, x, ks => by simp [laxScan]
  | T + 1, x, ks => by
    rw [List.ofFn_succ, laxScan]
    simp only []
    rw [scan_eq rng T _ fun t => ks t.succ, body_eq]
    simp only []
    rw [List.ofFn_succ]
    congr 1

/-- **C63.** What `generate_lgssm` returns is a simulation: for ideal random numbers there are numbers
`raw` for the parameters and `noise`, all independent, the noise standard normal, such that for every key
the parameters returned are made from `raw` and the observations returned are those that the state-space
model with these parameters produces from `noise`. -/
theorem lgssm_is_simulation (h : IdealGen rng P) (nx ny T : ℕ) :
    ∃ (raw : K → ((Fin nx → ℝ) × (Fin nx → Fin nx → ℝ)) × (Fin T → RawPar nx ny))
      (noise : K → (Fin nx → ℝ) × (Fin T → (Fin nx → ℝ) × (Fin ny → ℝ))),
      MeasurePreserving (fun k => (raw k, noise k)) P ((rawLaw nx ny T).prod (noiseLaw nx ny T)) ∧
      ∀ k, lgssm rng k nx ny T =
        let m0 := (raw k).1.1
        let cholP0 := lower (raw k).1.2
        let θ := fun t => parOf ((raw k).2 t)
        (m0, cholP0, List.ofFn fun t => ⟨(θ t).F, (θ t).c, (θ t).cholQ, (θ t).H, (θ t).d, (θ t).cholR,
          simulate T θ (m0 + cholP0 *ᵥ (noise k).1) (noise k).2 t⟩) := by
  refine ⟨fun k => (allDraws rng nx ny T k).1, fun k => (allDraws rng nx ny T k).2, allDraws_law h T, fun k => ?_⟩
  have hs : rng.split (rng.nth k 5 0) T = List.ofFn fun t => rng.nth (rng.nth k 5 0) T t := by
    refine List.ext_getElem (by rw [rng.length_split, List.length_ofFn]) fun i hi hi' => ?_
    rw [List.getElem_ofFn]; rfl
  simp only [lgssm, initModel, choleskyFactor_eq]
  rw [hs, scan_eq]
  rfl

end

end Generate
end Cuthbert
