import Verif.Spec.LGSSM
import Verif.Lemmas.Bayes

/-!
# Lemmas about linear-Gaussian state-space models
-/

namespace Cuthbert
open MeasureTheory ProbabilityTheory Matrix
open scoped ENNReal

noncomputable section

set_option linter.unusedSectionVars false

variable {nx ny : ℕ}

/-! ## Measurability -/

theorem measurable_gaussLogDensity {ο : Type*} [Fintype ο] [DecidableEq ο] (H : Matrix ο (Fin nx) ℝ)
    (d : ο → ℝ) (S : Matrix ο ο ℝ) (y : ο → ℝ) :
    Measurable fun x : Fin nx → ℝ => gaussLogDensity (H *ᵥ x + d) S y := by
  simp only [gaussLogDensity, Matrix.mulVec, dotProduct, Pi.sub_apply, Pi.add_apply]
  fun_prop

theorem Step.measurable_lik (s : Step nx ny) : Measurable s.lik :=
  ENNReal.measurable_ofReal.comp (Real.measurable_exp.comp (measurable_gaussLogDensity _ _ _ _))

theorem measurable_pathCons {Ω V : Type*} [MeasurableSpace Ω] [MeasurableSpace V] {x : Ω → V}
    {p : Ω → ℕ → V} (hx : Measurable x) (hp : Measurable p) :
    Measurable fun ω => pathCons (x ω) (p ω) := by
  refine measurable_pi_lambda _ fun n => ?_
  cases n with
  | zero => exact hx
  | succ n => exact (measurable_pi_apply n).comp hp

theorem measurable_mean_kernel {Ω : Type*} [MeasurableSpace Ω] (F : Matrix (Fin nx) (Fin nx) ℝ)
    (c : Fin nx → ℝ) {x : Ω → Fin nx → ℝ} (hx : Measurable x) :
    Measurable fun ω => F *ᵥ x ω + c :=
  ((measurable_mulVec F).comp hx).add measurable_const

theorem measurable_pathExp (ss : List (Step nx ny)) : ∀ {Ω : Type} [MeasurableSpace Ω]
    {f : Ω × (ℕ → Fin nx → ℝ) → ℝ≥0∞} (_ : Measurable f) {x : Ω → Fin nx → ℝ} (_ : Measurable x),
    Measurable fun ω => pathExp ss (fun p => f (ω, p)) (x ω) := by
  induction ss with
  | nil =>
    intro Ω _ f hf x hx
    exact hf.comp (measurable_id.prodMk (measurable_pi_lambda _ fun _ => hx))
  | cons s ss ih =>
    intro Ω _ f hf x hx
    simp only [pathExp]
    have hf' : Measurable fun q : (Ω × (Fin nx → ℝ)) × (ℕ → Fin nx → ℝ) =>
        f (q.1.1, pathCons (x q.1.1) q.2) :=
      hf.comp ((measurable_fst.comp measurable_fst).prodMk (measurable_pathCons
        (hx.comp (measurable_fst.comp measurable_fst)) measurable_snd))
    have h := ih hf' (x := fun ω => ω.2) measurable_snd
    exact measurable_lintegral_kernel (fun ω => s.F *ᵥ x ω + s.c) (measurable_mean_kernel _ _ hx) s.cholQ
      (f := fun q => s.lik q.2 * pathExp ss (fun p => f (q.1, pathCons (x q.1) p)) q.2)
      ((s.measurable_lik.comp measurable_snd).mul h)

theorem measurable_pathExp' (ss : List (Step nx ny)) {f : (ℕ → Fin nx → ℝ) → ℝ≥0∞}
    (hf : Measurable f) : Measurable (pathExp ss f) :=
  measurable_pathExp ss (Ω := Fin nx → ℝ) (f := fun q => f q.2) (hf.comp measurable_snd) measurable_id

/-! ## Algebra of path expectations -/

theorem pathExp_congr_head (ss : List (Step nx ny)) (x : Fin nx → ℝ)
    (f g : (ℕ → Fin nx → ℝ) → ℝ≥0∞) (h : ∀ p, p 0 = x → f p = g p) :
    pathExp ss f x = pathExp ss g x := by
  cases ss with
  | nil => exact h _ rfl
  | cons s ss =>
    simp only [pathExp]
    have : (fun p => f (pathCons x p)) = fun p => g (pathCons x p) := by
      funext p; exact h _ rfl
    rw [this]

theorem pathExp_swap (ss : List (Step nx ny)) : ∀ {α : Type} [MeasurableSpace α] (μ : Measure α) [SFinite μ]
    {f : α × (ℕ → Fin nx → ℝ) → ℝ≥0∞} (_ : Measurable f) (x : Fin nx → ℝ),
    ∫⁻ a, pathExp ss (fun p => f (a, p)) x ∂μ = pathExp ss (fun p => ∫⁻ a, f (a, p) ∂μ) x := by
  induction ss with
  | nil => intros; rfl
  | cons s ss ih =>
    intro α _ μ _ f hf x
    simp only [pathExp]
    have hf' : Measurable fun q : α × (ℕ → Fin nx → ℝ) => f (q.1, pathCons x q.2) :=
      hf.comp (measurable_fst.prodMk (measurable_pathCons measurable_const measurable_snd))
    have hm : Measurable fun q : α × (Fin nx → ℝ) =>
        pathExp ss (fun p => f (q.1, pathCons x p)) q.2 :=
      measurable_pathExp ss (f := fun q : (α × (Fin nx → ℝ)) × (ℕ → Fin nx → ℝ) =>
        f (q.1.1, pathCons x q.2))
        (hf'.comp ((measurable_fst.comp measurable_fst).prodMk measurable_snd)) measurable_snd
    rw [lintegral_lintegral_swap ((s.measurable_lik.comp measurable_snd).mul hm).aemeasurable]
    congr 1
    funext x'
    have hm' : Measurable fun a : α => pathExp ss (fun p => f (a, pathCons x p)) x' :=
      hm.comp (measurable_id.prodMk measurable_const)
    rw [lintegral_const_mul _ hm', ih μ hf' x']

/-! ## The Kalman recursion in covariance form -/

/-- A filtering law with its accumulated log-likelihood. -/
structure KF (nx : ℕ) where
  m : Fin nx → ℝ
  P : Matrix (Fin nx) (Fin nx) ℝ
  l : ℝ

/-- Predict and condition. -/
def kfStep (k : KF nx) (s : Step nx ny) : KF nx where
  m := condMean (s.F *ᵥ k.m + s.c) (s.F * k.P * s.Fᵀ + s.cholQ * s.cholQᵀ) (obsH s.y s.H)
    (obsV s.y s.d) s.R (obsY s.y)
  P := condCov (s.F * k.P * s.Fᵀ + s.cholQ * s.cholQᵀ) (obsH s.y s.H) s.R
  l := k.l + gaussLogDensity (obsH s.y s.H *ᵥ (s.F *ᵥ k.m + s.c) + obsV s.y s.d)
    (innovCov (s.F * k.P * s.Fᵀ + s.cholQ * s.cholQᵀ) (obsH s.y s.H) s.R) (obsY s.y)

theorem Step.R_gram (s : Step nx ny) : IsGram s.R := isGram_of _

theorem pred_gram {P : Matrix (Fin nx) (Fin nx) ℝ} (hP : IsGram P) (s : Step nx ny) :
    IsGram (s.F * P * s.Fᵀ + s.cholQ * s.cholQᵀ) :=
  (hP.conj s.F).add (isGram_of _)

/-- The innovation covariance is nonsingular as soon as that of the scan element is. -/
theorem innov_det {P : Matrix (Fin nx) (Fin nx) ℝ} (hP : IsGram P) (s : Step nx ny)
    (hd : (innovCov (s.cholQ * s.cholQᵀ) (obsH s.y s.H) s.R).det ≠ 0) :
    (innovCov (s.F * P * s.Fᵀ + s.cholQ * s.cholQᵀ) (obsH s.y s.H) s.R).det ≠ 0 := by
  have h : innovCov (s.F * P * s.Fᵀ + s.cholQ * s.cholQᵀ) (obsH s.y s.H) s.R =
      innovCov (s.cholQ * s.cholQᵀ) (obsH s.y s.H) s.R +
        obsH s.y s.H * (s.F * P * s.Fᵀ) * (obsH s.y s.H)ᵀ := by
    simp only [innovCov, Matrix.mul_add, Matrix.add_mul]; abel
  rw [h]
  exact (innovCov_gram (isGram_of _) s.R_gram).det_add_ne_zero hd
    ((hP.conj s.F).conj _)

theorem innov_det_of_R (s : Step nx ny) (hR : s.R.det ≠ 0) {P : Matrix (Fin nx) (Fin nx) ℝ}
    (hP : IsGram P) : (innovCov P (obsH s.y s.H) s.R).det ≠ 0 := by
  rw [innovCov, add_comm]
  exact s.R_gram.det_add_ne_zero hR (hP.conj _)

theorem kfStep_gram {k : KF nx} (hP : IsGram k.P) (s : Step nx ny)
    (hd : (innovCov (s.cholQ * s.cholQᵀ) (obsH s.y s.H) s.R).det ≠ 0) : IsGram (kfStep k s).P :=
  condCov_gram (pred_gram hP s) s.R_gram (innov_det hP s hd)

theorem kf_gram (ss : List (Step nx ny)) : ∀ {k : KF nx}, IsGram k.P →
    (∀ s ∈ ss, (innovCov (s.cholQ * s.cholQᵀ) (obsH s.y s.H) s.R).det ≠ 0) →
    IsGram (ss.foldl kfStep k).P := by
  induction ss with
  | nil => intro k h _; exact h
  | cons s ss ih =>
    intro k h hs
    exact ih (kfStep_gram h s (hs s (by simp))) fun s' h' => hs s' (by simp [h'])

/-- Predict, then weight by the likelihood: the one-step identity for measures. -/
theorem one_step (m : Fin nx → ℝ) (P : Matrix (Fin nx) (Fin nx) ℝ) (l : ℝ) {α : Type*} [Fintype α]
    (A : Matrix (Fin nx) α ℝ) (hA : A * Aᵀ = P) (s : Step nx ny) (hR : s.R.det ≠ 0)
    (V : Matrix (Fin nx) (Fin nx) ℝ) (hV : V * Vᵀ = (kfStep ⟨m, P, l⟩ s).P)
    {h : (Fin nx → ℝ) → ℝ≥0∞} (hh : Measurable h) :
    ∫⁻ x, ∫⁻ x', s.lik x' * h x' ∂gauss (s.F *ᵥ x + s.c) s.cholQ ∂gauss m A =
      ENNReal.ofReal (Real.exp ((kfStep ⟨m, P, l⟩ s).l - l)) *
        ∫⁻ x', h x' ∂gauss (kfStep ⟨m, P, l⟩ s).m V := by
  subst hA
  obtain ⟨W, hW⟩ := (pred_gram (isGram_of A) s).exists_sqrt
  rw [gauss_predict m A s.F s.c s.cholQ hW (f := fun x' => s.lik x' * h x')
    (s.measurable_lik.mul hh)]
  have := gauss_bayes_pointwise (s.F *ᵥ m + s.c) W (obsH s.y s.H) (obsV s.y s.d) s.R_gram hR V
    (by rw [hV, hW]; rfl) (obsY s.y) hh
  simp only [Step.lik]
  rw [this, hW]
  simp only [kfStep, add_sub_cancel_left]

/-- Integrating out the first `t` steps: the remaining path starts from the filtering law. -/
theorem joint_split (ss : List (Step nx ny)) : ∀ (t : ℕ) (_ : t ≤ ss.length)
    (_ : ∀ s ∈ ss.take t, s.R.det ≠ 0) (k : KF nx) {α : Type} [Fintype α] (A : Matrix (Fin nx) α ℝ)
    (_ : A * Aᵀ = k.P) {β : Type} [Fintype β] (V : Matrix (Fin nx) β ℝ)
    (_ : V * Vᵀ = ((ss.take t).foldl kfStep k).P)
    {f : (ℕ → Fin nx → ℝ) → ℝ≥0∞} (_ : Measurable f),
    ∫⁻ x, pathExp ss (fun p => f fun n => p (n + t)) x ∂gauss k.m A =
      ENNReal.ofReal (Real.exp (((ss.take t).foldl kfStep k).l - k.l)) *
        ∫⁻ x, pathExp (ss.drop t) f x ∂gauss ((ss.take t).foldl kfStep k).m V := by
  induction ss with
  | nil =>
    intro t ht _ k α _ A hA β _ V hV f hf
    simp only [List.take_nil, List.foldl_nil, List.drop_nil, sub_self, Real.exp_zero,
      ENNReal.ofReal_one, one_mul] at hV ⊢
    have ht0 : t = 0 := by simpa using ht
    subst ht0
    rw [gauss_eq_of_gram k.m A V (by rw [hA, hV])]
    rfl
  | cons s ss ih =>
    intro t ht hR k α _ A hA β _ V hV f hf
    cases t with
    | zero =>
      simp only [List.take_zero, List.foldl_nil, List.drop_zero, sub_self, Real.exp_zero,
        ENNReal.ofReal_one, one_mul] at hV ⊢
      rw [gauss_eq_of_gram k.m A V (by rw [hA, hV])]
      rfl
    | succ t =>
      simp only [List.take_succ_cons, List.foldl_cons, List.drop_succ_cons] at hV hR ⊢
      have hRs : s.R.det ≠ 0 := hR s (by simp)
      have hR' : ∀ s ∈ ss.take t, s.R.det ≠ 0 := fun s' h' => hR s' (by simp [h'])
      have hkP : IsGram k.P := by rw [← hA]; exact isGram_of A
      obtain ⟨W, hW⟩ := (kfStep_gram hkP s (innov_det_of_R s hRs (isGram_of _))).exists_sqrt
      have hft : Measurable fun p : ℕ → Fin nx → ℝ => f fun n => p (n + t) :=
        hf.comp (measurable_pi_lambda _ fun n => measurable_pi_apply _)
      have h1 := one_step k.m k.P k.l A hA s hRs W hW (measurable_pathExp' ss hft)
      have h2 := ih t (by simpa using ht) hR' (kfStep k s) W hW V hV hf
      have h3 : ∀ x, pathExp (s :: ss) (fun p => f fun n => p (n + (t + 1))) x =
          ∫⁻ x', s.lik x' * pathExp ss (fun p => f fun n => p (n + t)) x'
            ∂gauss (s.F *ᵥ x + s.c) s.cholQ := fun x => rfl
      simp only [h3]
      have hk : (⟨k.m, k.P, k.l⟩ : KF nx) = k := rfl
      rw [hk] at h1
      rw [h1, h2, ← mul_assoc, ← ENNReal.ofReal_mul (Real.exp_nonneg _), ← Real.exp_add]
      congr 3
      ring

/-! ## Backward paths -/

/-- A backward transition `x_t = g + E x_{t+1} + D ε`. -/
structure BStep (nx : ℕ) where
  g : Fin nx → ℝ
  E : Matrix (Fin nx) (Fin nx) ℝ
  D : Matrix (Fin nx) (Fin nx) ℝ

/-- Expectation over a path drawn backwards: `x_T ~ N(mT, LT LTᵀ)`, then each `x_t` given `x_{t+1}`. -/
def backExp (mT : Fin nx → ℝ) (LT : Matrix (Fin nx) (Fin nx) ℝ) :
    List (BStep nx) → ((ℕ → Fin nx → ℝ) → ℝ≥0∞) → ℝ≥0∞
  | [], f => ∫⁻ x, f (fun _ => x) ∂gauss mT LT
  | b :: bs, f => backExp mT LT bs fun p => ∫⁻ x, f (pathCons x p) ∂gauss (b.E *ᵥ p 0 + b.g) b.D

/-- `b` is the conditional law of `x_t` given `x_{t+1}` under the filtering law `N(m, P)`. -/
structure IsBackward (m : Fin nx → ℝ) (P : Matrix (Fin nx) (Fin nx) ℝ) (s : Step nx ny) (b : BStep nx) :
    Prop where
  det : (innovCov P s.F (s.cholQ * s.cholQᵀ)).det ≠ 0
  mean : ∀ x', b.E *ᵥ x' + b.g = condMean m P s.F s.c (s.cholQ * s.cholQᵀ) x'
  cov : b.D * b.Dᵀ = condCov P s.F (s.cholQ * s.cholQᵀ)

/-- The backward transitions belonging to a filter run. -/
def IsBackwardChain : KF nx → List (Step nx ny) → List (BStep nx) → Prop
  | _, [], [] => True
  | k, s :: ss, b :: bs => IsBackward k.m k.P s b ∧ IsBackwardChain (kfStep k s) ss bs
  | _, _, _ => False

theorem measurable_back {Ω : Type} [MeasurableSpace Ω] (b : BStep nx)
    {f : Ω × (ℕ → Fin nx → ℝ) → ℝ≥0∞} (hf : Measurable f) :
    Measurable fun q : Ω × (ℕ → Fin nx → ℝ) =>
      ∫⁻ x, f (q.1, pathCons x q.2) ∂gauss (b.E *ᵥ q.2 0 + b.g) b.D := by
  have hm : Measurable fun q : Ω × (ℕ → Fin nx → ℝ) => b.E *ᵥ q.2 0 + b.g :=
    measurable_mean_kernel _ _ ((measurable_pi_apply 0).comp measurable_snd)
  exact measurable_lintegral_kernel _ hm b.D
    (f := fun r : (Ω × (ℕ → Fin nx → ℝ)) × (Fin nx → ℝ) => f (r.1.1, pathCons r.2 r.1.2))
    (hf.comp ((measurable_fst.comp measurable_fst).prodMk
      (measurable_pathCons measurable_snd (measurable_snd.comp measurable_fst))))

theorem measurable_back' (b : BStep nx) {f : (ℕ → Fin nx → ℝ) → ℝ≥0∞} (hf : Measurable f) :
    Measurable fun p : ℕ → Fin nx → ℝ => ∫⁻ x, f (pathCons x p) ∂gauss (b.E *ᵥ p 0 + b.g) b.D := by
  have := measurable_back (Ω := Unit) b (f := fun q => f q.2) (hf.comp measurable_snd)
  exact this.comp (measurable_const (a := ()) |>.prodMk measurable_id)

/-- The path law given the data is the backward path law. -/
theorem joint_back (ss : List (Step nx ny)) : ∀ (_ : ∀ s ∈ ss, s.R.det ≠ 0) (k : KF nx)
    {α : Type} [Fintype α] (A : Matrix (Fin nx) α ℝ) (_ : A * Aᵀ = k.P) (bs : List (BStep nx))
    (_ : IsBackwardChain k ss bs) (LT : Matrix (Fin nx) (Fin nx) ℝ)
    (_ : LT * LTᵀ = (ss.foldl kfStep k).P) {f : (ℕ → Fin nx → ℝ) → ℝ≥0∞} (_ : Measurable f),
    ∫⁻ x, pathExp ss f x ∂gauss k.m A =
      ENNReal.ofReal (Real.exp ((ss.foldl kfStep k).l - k.l)) *
        backExp (ss.foldl kfStep k).m LT bs f := by
  induction ss with
  | nil =>
    intro _ k α _ A hA bs hbs LT hLT f hf
    cases bs with
    | cons b bs => exact hbs.elim
    | nil =>
      simp only [List.foldl_nil, sub_self, Real.exp_zero, ENNReal.ofReal_one, one_mul, backExp] at hLT ⊢
      rw [gauss_eq_of_gram k.m A LT (by rw [hA, hLT])]
      rfl
  | cons s ss ih =>
    intro hR k α _ A hA bs hbs LT hLT f hf
    cases bs with
    | nil => exact hbs.elim
    | cons b bs =>
      obtain ⟨hb, hbs⟩ := hbs
      have hRs : s.R.det ≠ 0 := hR s (by simp)
      have hkP : IsGram k.P := by rw [← hA]; exact isGram_of A
      obtain ⟨V, hV⟩ := (kfStep_gram hkP s (innov_det_of_R s hRs (isGram_of _))).exists_sqrt
      -- the backward kernel
      have hbk := measurable_back' b hf
      have h2 := ih (fun s' h' => hR s' (by simp [h'])) (kfStep k s) V hV bs hbs LT hLT hbk
      simp only [List.foldl_cons, backExp]
      -- one step with the inner function
      obtain ⟨W, hW⟩ := (innovCov_gram (H := s.F) hkP (isGram_of s.cholQ)).exists_sqrt
      obtain ⟨g1, g2⟩ := gain_eqs s.F hkP (isGram_of s.cholQ) hb.det
      have hjm : Measurable fun q : (Fin nx → ℝ) × (Fin nx → ℝ) =>
          pathExp ss (fun p => f (pathCons q.2 p)) q.1 :=
        measurable_pathExp ss (f := fun q : ((Fin nx → ℝ) × (Fin nx → ℝ)) × (ℕ → Fin nx → ℝ) =>
          f (pathCons q.1.2 q.2))
          (hf.comp (measurable_pathCons (measurable_snd.comp measurable_fst) measurable_snd))
          measurable_fst
      have hdis := gauss_disint k.m A s.F s.c s.cholQ W
        (k.P * s.Fᵀ * (innovCov k.P s.F (s.cholQ * s.cholQᵀ))⁻¹) b.D
        (by rw [hW, hA]; rfl) (by rw [hW, hA]; exact g1) (by rw [hW, hA, hb.cov]; exact g2)
        (f := fun q => s.lik q.1 * pathExp ss (fun p => f (pathCons q.2 p)) q.1)
        ((s.measurable_lik.comp measurable_fst).mul hjm)
      have hmean : ∀ x', k.m + (k.P * s.Fᵀ * (innovCov k.P s.F (s.cholQ * s.cholQᵀ))⁻¹) *ᵥ
          (x' - (s.F *ᵥ k.m + s.c)) = b.E *ᵥ x' + b.g := by
        intro x'
        rw [hb.mean, condMean]
        simp only [Matrix.mulVec_mulVec, Matrix.mul_assoc]
      simp only [hmean] at hdis
      have hpe : ∀ x, pathExp (s :: ss) f x = ∫⁻ x', s.lik x' *
          pathExp ss (fun p => f (pathCons x p)) x' ∂gauss (s.F *ᵥ x + s.c) s.cholQ := fun x => rfl
      simp only [hpe]
      rw [hdis]
      -- pull the likelihood out and swap
      have hin : ∀ x', ∫⁻ x, s.lik x' * pathExp ss (fun p => f (pathCons x p)) x'
          ∂gauss (b.E *ᵥ x' + b.g) b.D = s.lik x' * pathExp ss
            (fun p => ∫⁻ x, f (pathCons x p) ∂gauss (b.E *ᵥ p 0 + b.g) b.D) x' := by
        intro x'
        have hm' : Measurable fun x : Fin nx → ℝ => pathExp ss (fun p => f (pathCons x p)) x' :=
          hjm.comp (measurable_const.prodMk measurable_id)
        rw [lintegral_const_mul _ hm']
        congr 1
        rw [pathExp_swap ss (gauss (b.E *ᵥ x' + b.g) b.D)
          (f := fun q : (Fin nx → ℝ) × (ℕ → Fin nx → ℝ) => f (pathCons q.1 q.2))
          (hf.comp (measurable_pathCons measurable_fst measurable_snd)) x']
        exact pathExp_congr_head ss x' _ _ fun p hp => by simp only [hp]
      simp only [hin]
      -- Bayes
      have hpred := gauss_predict k.m A s.F s.c s.cholQ (W := W) (by rw [hW, hA]; rfl)
        (f := fun x' => s.lik x' * pathExp ss
          (fun p => ∫⁻ x, f (pathCons x p) ∂gauss (b.E *ᵥ p 0 + b.g) b.D) x')
        (s.measurable_lik.mul (measurable_pathExp' ss hbk))
      rw [← hpred]
      have h1 := one_step k.m k.P k.l A hA s hRs V hV (measurable_pathExp' ss hbk)
      have hk : (⟨k.m, k.P, k.l⟩ : KF nx) = k := rfl
      rw [hk] at h1
      rw [h1, h2, ← mul_assoc, ← ENNReal.ofReal_mul (Real.exp_nonneg _), ← Real.exp_add]
      congr 3
      ring

/-! ## Marginals of the backward path law -/

/-- Marginal mean and covariance of `x_t` for a backward path. -/
def backMarg (mT : Fin nx → ℝ) (LT : Matrix (Fin nx) (Fin nx) ℝ) :
    List (BStep nx) → (Fin nx → ℝ) × Matrix (Fin nx) (Fin nx) ℝ
  | [] => (mT, LT * LTᵀ)
  | b :: bs => (b.E *ᵥ (backMarg mT LT bs).1 + b.g,
      b.E * (backMarg mT LT bs).2 * b.Eᵀ + b.D * b.Dᵀ)

theorem backMarg_gram (mT : Fin nx → ℝ) (LT : Matrix (Fin nx) (Fin nx) ℝ) (bs : List (BStep nx)) :
    IsGram (backMarg mT LT bs).2 := by
  induction bs with
  | nil => exact isGram_of LT
  | cons b bs ih => exact (ih.conj b.E).add (isGram_of _)

theorem backExp_head (mT : Fin nx → ℝ) (LT : Matrix (Fin nx) (Fin nx) ℝ) (bs : List (BStep nx)) :
    ∀ {α : Type} [Fintype α] (V : Matrix (Fin nx) α ℝ) (_ : V * Vᵀ = (backMarg mT LT bs).2)
      {φ : (Fin nx → ℝ) → ℝ≥0∞} (_ : Measurable φ),
      backExp mT LT bs (fun p => φ (p 0)) = ∫⁻ x, φ x ∂gauss (backMarg mT LT bs).1 V := by
  induction bs with
  | nil =>
    intro α _ V hV φ _
    simp only [backExp, backMarg] at hV ⊢
    rw [gauss_eq_of_gram mT LT V hV.symm]
  | cons b bs ih =>
    intro α _ V hV φ hφ
    simp only [backExp, backMarg] at hV ⊢
    have hm : Measurable fun x' : Fin nx → ℝ => b.E *ᵥ x' + b.g :=
      measurable_mean_kernel _ _ measurable_id
    have hφ' : Measurable fun x' : Fin nx → ℝ => ∫⁻ x, φ x ∂gauss (b.E *ᵥ x' + b.g) b.D :=
      measurable_lintegral_kernel _ hm b.D (f := fun q => φ q.2) (hφ.comp measurable_snd)
    obtain ⟨W, hW⟩ := (backMarg_gram mT LT bs).exists_sqrt
    have h := ih W hW hφ'
    refine h.trans ?_
    exact gauss_predict _ W b.E b.g b.D (by rw [hV, hW]) hφ

/-- Two neighbouring times. -/
theorem backExp_pair (mT : Fin nx → ℝ) (LT : Matrix (Fin nx) (Fin nx) ℝ) (b : BStep nx)
    (bs : List (BStep nx)) {α : Type} [Fintype α] (V : Matrix (Fin nx) α ℝ)
    (hV : V * Vᵀ = (backMarg mT LT bs).2) {φ : (Fin nx → ℝ) × (Fin nx → ℝ) → ℝ≥0∞} (hφ : Measurable φ) :
    backExp mT LT (b :: bs) (fun p => φ (p 0, p 1)) =
      ∫⁻ x', ∫⁻ x, φ (x, x') ∂gauss (b.E *ᵥ x' + b.g) b.D ∂gauss (backMarg mT LT bs).1 V := by
  have hm : Measurable fun x' : Fin nx → ℝ => b.E *ᵥ x' + b.g :=
    measurable_mean_kernel _ _ measurable_id
  have hφ' : Measurable fun x' : Fin nx → ℝ => ∫⁻ x, φ (x, x') ∂gauss (b.E *ᵥ x' + b.g) b.D :=
    measurable_lintegral_kernel _ hm b.D (f := fun q => φ (q.2, q.1)) (hφ.comp measurable_swap)
  exact backExp_head mT LT bs V hV hφ'

end

end Cuthbert
