import Verif.Spec.LeastSquares
import Verif.Lemmas.Uncertainty
import Verif.Props.KalmanSmoother

/-!
# The Kalman smoother returns the most probable trajectory (C91)
-/

namespace Cuthbert.Kalman
open Matrix Cuthbert Cuthbert.Spec

noncomputable section

set_option linter.unusedSectionVars false

variable {nx ny : ℕ} {Inp K : Type*}

/-! ### The first-order conditions -/

/-- The adjoint equations of a trajectory: `l` is the derivative of half the cost of the steps in `x_0`, with the
opposite sign. -/
def Adjoint : List (Step nx ny) → (ℕ → Fin nx → ℝ) → (ℕ → Fin nx → ℝ) → (Fin nx → ℝ) → Prop
  | [], _, _, l => l = 0
  | s :: ss, x, w, l => ∃ l', Adjoint ss (fun n => x (n + 1)) (fun n => w (n + 1)) l' ∧
      w 0 = s.cholQᵀ *ᵥ (l' + (obsH s.y s.H)ᵀ *ᵥ (s.R⁻¹ *ᵥ residual s (x 1))) ∧
      l = s.Fᵀ *ᵥ (l' + (obsH s.y s.H)ᵀ *ᵥ (s.R⁻¹ *ᵥ residual s (x 1)))

/-- Squared distance of two trajectories. -/
def excess : List (Step nx ny) → (ℕ → Fin nx → ℝ) → (ℕ → Fin nx → ℝ) → (ℕ → Fin nx → ℝ) → (ℕ → Fin nx → ℝ) → ℝ
  | [], _, _, _, _ => 0
  | s :: ss, x, w, x', w' => (w' 0 - w 0) ⬝ᵥ (w' 0 - w 0) +
      (obsH s.y s.H *ᵥ (x' 1 - x 1)) ⬝ᵥ s.R⁻¹ *ᵥ (obsH s.y s.H *ᵥ (x' 1 - x 1)) +
      excess ss (fun n => x (n + 1)) (fun n => w (n + 1)) (fun n => x' (n + 1)) fun n => w' (n + 1)

theorem dot_transpose {ι κ : Type*} [Fintype ι] [Fintype κ] (A : Matrix ι κ ℝ) (a : κ → ℝ) (b : ι → ℝ) :
    (Aᵀ *ᵥ b) ⬝ᵥ a = b ⬝ᵥ A *ᵥ a := by
  rw [Matrix.mulVec_transpose, Matrix.dotProduct_mulVec]

theorem gram_quad_nonneg {ι : Type*} [Fintype ι] [DecidableEq ι] {C : Matrix ι ι ℝ} (h : IsGram C) (v : ι → ℝ) :
    0 ≤ v ⬝ᵥ C *ᵥ v := by
  simpa using (isGram_iff.mp h).dotProduct_mulVec_nonneg v

theorem excess_nonneg : ∀ (ss : List (Step nx ny)) (x w x' w' : ℕ → Fin nx → ℝ), 0 ≤ excess ss x w x' w'
  | [], _, _, _, _ => le_rfl
  | s :: ss, x, w, x', w' => by
    have h1 := excess_nonneg ss (fun n => x (n + 1)) (fun n => w (n + 1)) (fun n => x' (n + 1)) fun n => w' (n + 1)
    have h2 : 0 ≤ (w' 0 - w 0) ⬝ᵥ (w' 0 - w 0) := by simpa using dotProduct_star_self_nonneg (w' 0 - w 0)
    have h3 := gram_quad_nonneg s.R_gram.inv (obsH s.y s.H *ᵥ (x' 1 - x 1))
    rw [excess]
    linarith

theorem misfit_expand (s : Step nx ny) (x x' : Fin nx → ℝ) : misfit s x' = misfit s x -
    2 * ((obsH s.y s.H)ᵀ *ᵥ (s.R⁻¹ *ᵥ residual s x) ⬝ᵥ (x' - x)) +
      (obsH s.y s.H *ᵥ (x' - x)) ⬝ᵥ s.R⁻¹ *ᵥ (obsH s.y s.H *ᵥ (x' - x)) := by
  have hr : residual s x' = residual s x - obsH s.y s.H *ᵥ (x' - x) := by
    rw [Spec.residual, Spec.residual, Matrix.mulVec_sub]
    abel
  have hRi : (s.R⁻¹)ᵀ = s.R⁻¹ := by rw [Matrix.transpose_nonsing_inv, s.R_gram.symm]
  rw [misfit, misfit, hr, dot_transpose, Matrix.mulVec_sub s.R⁻¹, dotProduct_sub, sub_dotProduct, sub_dotProduct,
    dot_symm s.R⁻¹ hRi (residual s x) (obsH s.y s.H *ᵥ (x' - x)),
    dotProduct_comm (s.R⁻¹ *ᵥ residual s x) (obsH s.y s.H *ᵥ (x' - x))]
  ring

theorem stepCost_expand : ∀ (ss : List (Step nx ny)) (x w x' w' : ℕ → Fin nx → ℝ) (l : Fin nx → ℝ),
    DrivenFrom ss x w → DrivenFrom ss x' w' → Adjoint ss x w l →
    stepCost ss x' w' = stepCost ss x w - 2 * (l ⬝ᵥ (x' 0 - x 0)) + excess ss x w x' w'
  | [], x, w, x', w', l, _, _, hl => by
    have h0 : l = 0 := hl
    rw [h0, stepCost, stepCost, excess, zero_dotProduct]
    ring
  | s :: ss, x, w, x', w', l, hx, hx', hl => by
    obtain ⟨l', h1, h2, h3⟩ := hl
    have ih := stepCost_expand ss _ _ _ _ l' hx.2 hx'.2 h1
    obtain ⟨μ, hμ⟩ : ∃ μ, μ = l' + (obsH s.y s.H)ᵀ *ᵥ (s.R⁻¹ *ᵥ residual s (x 1)) := ⟨_, rfl⟩
    rw [← hμ] at h2 h3
    have hl' : l' = μ - (obsH s.y s.H)ᵀ *ᵥ (s.R⁻¹ *ᵥ residual s (x 1)) := by rw [hμ]; abel
    have hΔ : s.cholQ *ᵥ (w' 0 - w 0) = x' 1 - x 1 - s.F *ᵥ (x' 0 - x 0) := by
      rw [hx.1, hx'.1, Matrix.mulVec_sub, Matrix.mulVec_sub]
      abel
    have hw : w' 0 ⬝ᵥ w' 0 = w 0 ⬝ᵥ w 0 + 2 * (w 0 ⬝ᵥ (w' 0 - w 0)) + (w' 0 - w 0) ⬝ᵥ (w' 0 - w 0) := by
      rw [dotProduct_sub, dotProduct_sub, sub_dotProduct, sub_dotProduct, dotProduct_comm (w' 0) (w 0)]
      ring
    have hw2 : w 0 ⬝ᵥ (w' 0 - w 0) = μ ⬝ᵥ (x' 1 - x 1) - l ⬝ᵥ (x' 0 - x 0) := by
      have h4 : w 0 ⬝ᵥ (w' 0 - w 0) = μ ⬝ᵥ s.cholQ *ᵥ (w' 0 - w 0) := by
        rw [← dot_transpose, ← h2]
      rw [h4, hΔ, dotProduct_sub, h3, dot_transpose]
    have hm := misfit_expand s (x 1) (x' 1)
    rw [hl', sub_dotProduct] at ih
    rw [stepCost, stepCost, excess, ih, hw, hw2, hm]
    simp only [zero_add]
    ring

/-- A trajectory that satisfies the first-order conditions has the least cost. -/
theorem pathCost_expand {m0 : Fin nx → ℝ} {cholP0 : Matrix (Fin nx) (Fin nx) ℝ} {ss : List (Step nx ny)}
    {x w x' w' : ℕ → Fin nx → ℝ} {ε' l : Fin nx → ℝ} (hx : Driven m0 cholP0 ss x (cholP0ᵀ *ᵥ l) w)
    (hx' : Driven m0 cholP0 ss x' ε' w') (hl : Adjoint ss x w l) :
    pathCost ss x' ε' w' = pathCost ss x (cholP0ᵀ *ᵥ l) w +
      ((ε' - cholP0ᵀ *ᵥ l) ⬝ᵥ (ε' - cholP0ᵀ *ᵥ l) + excess ss x w x' w') := by
  rw [pathCost, pathCost, stepCost_expand ss x w x' w' l hx.2 hx'.2 hl]
  have h1 : l ⬝ᵥ (x' 0 - x 0) = (cholP0ᵀ *ᵥ l) ⬝ᵥ (ε' - cholP0ᵀ *ᵥ l) := by
    rw [dot_transpose, hx.1, hx'.1, Matrix.mulVec_sub, add_sub_add_left_eq_sub]
  rw [h1]
  simp only [dotProduct_sub, sub_dotProduct, dotProduct_comm ε' (cholP0ᵀ *ᵥ l)]
  ring

theorem driven_unique : ∀ (ss : List (Step nx ny)) (x w x' w' : ℕ → Fin nx → ℝ), x' 0 = x 0 → DrivenFrom ss x w →
    DrivenFrom ss x' w' → excess ss x w x' w' = 0 →
    (∀ t ≤ ss.length, x' t = x t) ∧ ∀ t < ss.length, w' t = w t
  | [], x, w, x', w', h0, _, _, _ => by
    refine ⟨fun t ht => ?_, fun t ht => absurd ht (Nat.not_lt_zero t)⟩
    rw [Nat.le_zero.mp ht, h0]
  | s :: ss, x, w, x', w', h0, hx, hx', he => by
    have h1 := excess_nonneg ss (fun n => x (n + 1)) (fun n => w (n + 1)) (fun n => x' (n + 1)) fun n => w' (n + 1)
    have h2 : 0 ≤ (w' 0 - w 0) ⬝ᵥ (w' 0 - w 0) := by simpa using dotProduct_star_self_nonneg (w' 0 - w 0)
    have h3 := gram_quad_nonneg s.R_gram.inv (obsH s.y s.H *ᵥ (x' 1 - x 1))
    rw [excess] at he
    have h4 : (w' 0 - w 0) ⬝ᵥ (w' 0 - w 0) = 0 := by linarith
    have h5 : w' 0 = w 0 := sub_eq_zero.mp (dotProduct_self_eq_zero.mp h4)
    have h6 : x' 1 = x 1 := by rw [hx.1, hx'.1, h0, h5]
    obtain ⟨i1, i2⟩ := driven_unique ss (fun n => x (n + 1)) (fun n => w (n + 1)) (fun n => x' (n + 1))
      (fun n => w' (n + 1)) h6 hx.2 hx'.2 (by linarith)
    refine ⟨fun t ht => ?_, fun t ht => ?_⟩
    · cases t with
      | zero => exact h0
      | succ t => exact i1 t (by simpa using ht)
    · cases t with
      | zero => exact h5
      | succ t => exact i2 t (by simpa using ht)

/-! ### The smoothed means satisfy them -/

theorem condMean_info {ι ο : Type*} [Fintype ι] [Fintype ο] [DecidableEq ι] [DecidableEq ο] (m : ι → ℝ)
    {P : Matrix ι ι ℝ} (H : Matrix ο ι ℝ) (d : ο → ℝ) {R : Matrix ο ο ℝ} (hP : IsGram P) (hR : IsGram R)
    (hd : R.det ≠ 0) (y : ο → ℝ) (l : ι → ℝ) :
    condMean m P H d R y + condCov P H R *ᵥ l = m + P *ᵥ (l + Hᵀ *ᵥ (R⁻¹ *ᵥ
      (y - (H *ᵥ (condMean m P H d R y + condCov P H R *ᵥ l) + d)))) := by
  have hS : (innovCov P H R).det ≠ 0 := by
    rw [innovCov, add_comm]
    exact hR.det_add_ne_zero hd (hP.conj H)
  have hC : condCov P H R *ᵥ l = P *ᵥ l - P *ᵥ (Hᵀ *ᵥ (R⁻¹ *ᵥ (H *ᵥ (condCov P H R *ᵥ l)))) := by
    have h1 : (1 + P * obsInfo H R) * condCov P H R = P := by
      rw [condCov_eq_par hP hR hd]
      exact par_left hP (obsInfo_gram hR)
    have h2 := congrArg (· *ᵥ l) h1
    simp only [Matrix.add_mul, Matrix.one_mul, Matrix.add_mulVec] at h2
    rw [eq_sub_iff_add_eq, ← h2, obsInfo]
    simp only [Matrix.mulVec_mulVec, Matrix.mul_assoc]
  have hM : condMean m P H d R y = m + P *ᵥ (Hᵀ *ᵥ (R⁻¹ *ᵥ (y - (H *ᵥ condMean m P H d R y + d)))) := by
    obtain ⟨u, hu⟩ : ∃ u, u = (innovCov P H R)⁻¹ *ᵥ (y - (H *ᵥ m + d)) := ⟨_, rfl⟩
    have h1 : condMean m P H d R y = m + P *ᵥ (Hᵀ *ᵥ u) := by rw [condMean, hu]
    have h2 : y - (H *ᵥ m + d) = H *ᵥ (P *ᵥ (Hᵀ *ᵥ u)) + R *ᵥ u := by
      have h3 : innovCov P H R *ᵥ u = y - (H *ᵥ m + d) := by
        rw [hu, Matrix.mulVec_mulVec, Matrix.mul_nonsing_inv _ (isUnit_iff_ne_zero.mpr hS), Matrix.one_mulVec]
      rw [← h3, innovCov, Matrix.add_mulVec]
      simp only [Matrix.mulVec_mulVec, Matrix.mul_assoc]
    have h4 : R⁻¹ *ᵥ (y - (H *ᵥ condMean m P H d R y + d)) = u := by
      have h5 : y - (H *ᵥ condMean m P H d R y + d) = R *ᵥ u := by
        rw [h1, Matrix.mulVec_add]
        calc _ = y - (H *ᵥ m + d) - H *ᵥ (P *ᵥ (Hᵀ *ᵥ u)) := by abel
          _ = _ := by rw [h2]; abel
      rw [h5, Matrix.mulVec_mulVec, Matrix.nonsing_inv_mul _ (isUnit_iff_ne_zero.mpr hd), Matrix.one_mulVec]
    rw [h4, ← h1]
  obtain ⟨M, hMe⟩ : ∃ M, M = condMean m P H d R y := ⟨_, rfl⟩
  obtain ⟨C, hCe⟩ : ∃ C, C = condCov P H R *ᵥ l := ⟨_, rfl⟩
  rw [← hMe] at hM ⊢
  rw [← hCe] at hC ⊢
  conv_lhs => rw [hM, hC]
  have : y - (H *ᵥ (M + C) + d) = (y - (H *ᵥ M + d)) - H *ᵥ C := by
    rw [Matrix.mulVec_add]
    abel
  rw [this]
  simp only [Matrix.mulVec_sub, Matrix.mulVec_add]
  abel

/-- The smoothed means of a chain of backward transitions. -/
def backMeans (mT : Fin nx → ℝ) (bs : List (BStep nx)) : ℕ → Fin nx → ℝ :=
  fun n => (backMarg mT 0 (bs.drop n)).1

theorem backMarg_mean (mT : Fin nx → ℝ) (LT : Matrix (Fin nx) (Fin nx) ℝ) (bs : List (BStep nx)) :
    (backMarg mT LT bs).1 = (backMarg mT 0 bs).1 := by
  induction bs with
  | nil => rfl
  | cons b bs ih => rw [backMarg, backMarg, ih]

theorem backMeans_adjoint : ∀ (ss : List (Step nx ny)) (k : KF nx) (bs : List (BStep nx)), IsGram k.P →
    (∀ s ∈ ss, s.R.det ≠ 0) → IsBackwardChain k ss bs → ∃ l w,
      backMeans (ss.foldl kfStep k).m bs 0 = k.m + k.P *ᵥ l ∧
      DrivenFrom ss (backMeans (ss.foldl kfStep k).m bs) w ∧ Adjoint ss (backMeans (ss.foldl kfStep k).m bs) w l
  | [], k, [], _, _, _ => ⟨0, 0, by simp [backMeans, backMarg], trivial, rfl⟩
  | s :: ss, k, b :: bs, hk, hR, hc => by
    have hRs := hR s List.mem_cons_self
    obtain ⟨l', w, h1, h2, h3⟩ := backMeans_adjoint ss (kfStep k s) bs (kfStep_gram k hk s hRs)
      (fun s' hs' => hR s' (List.mem_cons_of_mem _ hs')) hc.2
    have hfold : (s :: ss).foldl kfStep k = ss.foldl kfStep (kfStep k s) := rfl
    rw [hfold]
    obtain ⟨mT, hmT⟩ : ∃ mT, mT = (ss.foldl kfStep (kfStep k s)).m := ⟨_, rfl⟩
    rw [← hmT] at h1 h2 h3 ⊢
    have htail : (fun n => backMeans mT (b :: bs) (n + 1)) = backMeans mT bs := rfl
    have hone : backMeans mT (b :: bs) 1 = backMeans mT bs 0 := rfl
    obtain ⟨μ, hμ⟩ : ∃ μ, μ = l' + (obsH s.y s.H)ᵀ *ᵥ (s.R⁻¹ *ᵥ residual s (backMeans mT (b :: bs) 1)) := ⟨_, rfl⟩
    -- in terms of the predicted moments
    have hpred : backMeans mT bs 0 = s.F *ᵥ k.m + s.c + innovCov k.P s.F (s.cholQ * s.cholQᵀ) *ᵥ μ := by
      have h4 := condMean_info (s.F *ᵥ k.m + s.c) (obsH s.y s.H) (obsV s.y s.d) (pred_gram hk s) s.R_gram hRs
        (obsY s.y) l'
      have h5 : backMeans mT bs 0 = condMean (s.F *ᵥ k.m + s.c) (s.F * k.P * s.Fᵀ + s.cholQ * s.cholQᵀ)
          (obsH s.y s.H) (obsV s.y s.d) s.R (obsY s.y) +
          condCov (s.F * k.P * s.Fᵀ + s.cholQ * s.cholQᵀ) (obsH s.y s.H) s.R *ᵥ l' := h1
      rw [← h5] at h4
      rw [hμ, hone, Spec.residual]
      exact h4
    have hgain : backMeans mT (b :: bs) 0 = k.m + k.P *ᵥ (s.Fᵀ *ᵥ μ) := by
      have h4 : backMeans mT (b :: bs) 0 = b.E *ᵥ backMeans mT bs 0 + b.g := rfl
      rw [h4, hc.1.mean, condMean, hpred]
      congr 3
      rw [add_sub_cancel_left, Matrix.mulVec_mulVec, Matrix.nonsing_inv_mul _ (isUnit_iff_ne_zero.mpr hc.1.det),
        Matrix.one_mulVec]
    refine ⟨s.Fᵀ *ᵥ μ, pathCons (s.cholQᵀ *ᵥ μ) w, hgain, ⟨?_, h2⟩, ⟨l', h3, ?_, ?_⟩⟩
    · rw [hone, hpred, hgain, innovCov]
      simp only [pathCons, Matrix.add_mulVec, Matrix.mulVec_add, Matrix.mulVec_mulVec, Matrix.mul_assoc]
      abel
    · rw [← hμ]; rfl
    · rw [← hμ]
  | [], _, _ :: _, _, _, hc => hc.elim
  | _ :: _, _, [], _, _, hc => hc.elim

theorem backChain_unique : ∀ (ss : List (Step nx ny)) (k : KF nx) (bs bs' : List (BStep nx)) (mT : Fin nx → ℝ),
    IsBackwardChain k ss bs → IsBackwardChain k ss bs' → (backMarg mT 0 bs).1 = (backMarg mT 0 bs').1
  | [], _, [], [], _, _, _ => rfl
  | s :: ss, k, b :: bs, b' :: bs', mT, h, h' => by
    have ih := backChain_unique ss _ bs bs' mT h.2 h'.2
    rw [backMarg, backMarg, ih]
    simp only
    rw [h.1.mean, h'.1.mean]
  | [], _, _ :: _, _, _, h, _ => h.elim
  | [], _, [], _ :: _, _, _, h => h.elim
  | _ :: _, _, [], _, _, h, _ => h.elim
  | _ :: _, _, _ :: _, [], _, _, h => h.elim

theorem backChain_drop : ∀ (t : ℕ) (ss : List (Step nx ny)) (k : KF nx) (bs : List (BStep nx)),
    IsBackwardChain k ss bs → IsBackwardChain ((ss.take t).foldl kfStep k) (ss.drop t) (bs.drop t)
  | 0, _, _, _, h => h
  | _ + 1, [], _, [], _ => trivial
  | t + 1, _ :: ss, _, _ :: bs, h => backChain_drop t ss _ bs h.2
  | _ + 1, [], _, _ :: _, h => h.elim
  | _ + 1, _ :: _, _, [], h => h.elim

/-- **C91.** The means the Kalman smoother returns, in any mode, are the trajectory of least cost: they are driven by
some noises, every other trajectory with its noises costs at least as much, and only the smoothed means attain the
minimum. Covariances of the initial state and of the transitions may be singular, in which case only the
trajectories the model allows compete; components of observations may be missing. -/
theorem kalman_smoother_least_squares (qr : QR) (rng rng' : Prng K) (cb : Callbacks nx ny Inp) (u₀ : Inp)
    (us : List Inp) (hus : us ≠ []) (parallel parallel' : Bool) (key key' : Option K)
    (opts : SmootherOpts nx Inp) (hR : ∀ u ∈ us, (stepOf cb u).R.det ≠ 0)
    (filterStates : List (FilterState nx Inp))
    (hf : (filter rng (buildFilter qr cb) (u₀ :: us) parallel key).result = .ok filterStates)
    (hP : ∀ (t : ℕ) s L u, filterStates[t]? = some s → s.cholCov = some L → us[t]? = some u →
      ((stepOf cb u).F * (L * Lᵀ) * ((stepOf cb u).F)ᵀ +
        (stepOf cb u).cholQ * ((stepOf cb u).cholQ)ᵀ).det ≠ 0)
    (mi : Option (List Inp)) (hmi : mi = none ∨ mi = some us ∨ mi = some (u₀ :: us)) :
    ∃ states x ε w, (smoother rng' FilterState.modelInputs (fun u => .ok (opts.dummy u))
        (buildSmoother qr cb.getDynamics opts) filterStates mi parallel' key').result = .ok states ∧
      (∀ t ≤ us.length, ∃ s, states[t]? = some s ∧ s.mean = some (x t)) ∧
      Driven (cb.getInit u₀).1 (cb.getInit u₀).2 (us.map (stepOf cb)) x ε w ∧
      ∀ x' ε' w', Driven (cb.getInit u₀).1 (cb.getInit u₀).2 (us.map (stepOf cb)) x' ε' w' →
        pathCost (us.map (stepOf cb)) x ε w ≤ pathCost (us.map (stepOf cb)) x' ε' w' ∧
        (pathCost (us.map (stepOf cb)) x' ε' w' = pathCost (us.map (stepOf cb)) x ε w →
          ε' = ε ∧ (∀ t ≤ us.length, x' t = x t) ∧ ∀ t < us.length, w' t = w t) := by
  obtain ⟨states, LT, h1, h2, -, h4⟩ := smoother_run_facts qr rng rng' cb u₀ us hus parallel parallel' key key' opts
    (fun u hu => ScanOk.of_R _ (hR u hu)) filterStates hf hP mi hmi
  obtain ⟨-, -, bs, -, -, hch, -⟩ := h4 0 (Nat.zero_le _)
  rw [List.drop_zero] at hch
  have hR' : ∀ s ∈ us.map (stepOf cb), s.R.det ≠ 0 := by
    intro s hs
    obtain ⟨u, hu, rfl⟩ := List.mem_map.mp hs
    exact hR u hu
  have hk0 : kfAt cb u₀ us 0 = ⟨(cb.getInit u₀).1, (cb.getInit u₀).2 * ((cb.getInit u₀).2)ᵀ, 0⟩ := by
    simp [kfAt]
  have hkT : (us.map (stepOf cb)).foldl kfStep (kfAt cb u₀ us 0) = kfAt cb u₀ us us.length := by
    rw [hk0, kfAt, List.take_length]
  obtain ⟨l, w, a1, a2, a3⟩ := backMeans_adjoint (us.map (stepOf cb)) (kfAt cb u₀ us 0) bs (by
    rw [hk0]; exact isGram_of _) hR' hch
  rw [hkT] at a1 a2 a3
  obtain ⟨mT, hmT⟩ : ∃ mT, mT = (kfAt cb u₀ us us.length).m := ⟨_, rfl⟩
  rw [← hmT] at a1 a2 a3 h4
  have hd : Driven (cb.getInit u₀).1 (cb.getInit u₀).2 (us.map (stepOf cb)) (backMeans mT bs)
      (((cb.getInit u₀).2)ᵀ *ᵥ l) w := by
    refine ⟨?_, a2⟩
    rw [a1, hk0, Matrix.mulVec_mulVec]
  refine ⟨states, backMeans mT bs, _, w, h1, fun t ht => ?_, hd, fun x' ε' w' hd' => ?_⟩
  · obtain ⟨s, e, bs', b1, b2, b3, b4, -⟩ := h4 t ht
    refine ⟨s, b1, ?_⟩
    have hdrop := backChain_drop t _ _ _ hch
    have hkt : ((us.map (stepOf cb)).take t).foldl kfStep (kfAt cb u₀ us 0) = kfAt cb u₀ us t := by
      rw [hk0, kfAt, List.map_take]
    rw [hkt, ← List.map_drop] at hdrop
    have hu := backChain_unique _ _ _ _ mT hdrop b3
    have hg := congrArg SElem.g b4
    simp only [sForm] at hg
    rw [SmootherState.mean, b2, Option.map_some, hg, backMarg_mean, ← hu]
    rfl
  · have he := pathCost_expand hd hd' a3
    have e1 := excess_nonneg (us.map (stepOf cb)) (backMeans mT bs) w x' w'
    have e2 : 0 ≤ (ε' - ((cb.getInit u₀).2)ᵀ *ᵥ l) ⬝ᵥ (ε' - ((cb.getInit u₀).2)ᵀ *ᵥ l) := by
      simpa using dotProduct_star_self_nonneg (ε' - ((cb.getInit u₀).2)ᵀ *ᵥ l)
    refine ⟨by linarith, fun heq => ?_⟩
    have h5 : (ε' - ((cb.getInit u₀).2)ᵀ *ᵥ l) ⬝ᵥ (ε' - ((cb.getInit u₀).2)ᵀ *ᵥ l) = 0 := by linarith
    have h6 : ε' = ((cb.getInit u₀).2)ᵀ *ᵥ l := sub_eq_zero.mp (dotProduct_self_eq_zero.mp h5)
    have h7 : x' 0 = backMeans mT bs 0 := by rw [hd'.1, hd.1, h6]
    have h8 := driven_unique _ _ _ _ _ h7 hd.2 hd'.2 (by linarith)
    rw [List.length_map] at h8
    exact ⟨h6, h8.1, h8.2⟩

/-! ### The most probable trajectory -/

theorem gaussLogDensity_noise (m : Fin nx → ℝ) (L : Matrix (Fin nx) (Fin nx) ℝ) (hL : (L * Lᵀ).det ≠ 0)
    (ε : Fin nx → ℝ) : gaussLogDensity m (L * Lᵀ) (m + L *ᵥ ε) =
      -(1 / 2) * (ε ⬝ᵥ ε) - (Fintype.card (Fin nx) / 2 * Real.log (2 * Real.pi) + 1 / 2 * Real.log (L * Lᵀ).det) := by
  have hd : IsUnit L.det := by
    rw [Matrix.det_mul] at hL
    exact isUnit_iff_ne_zero.mpr (left_ne_zero_of_mul hL)
  have hd' : IsUnit Lᵀ.det := by rwa [Matrix.det_transpose]
  have h1 : (L *ᵥ ε) ⬝ᵥ (L * Lᵀ)⁻¹ *ᵥ (L *ᵥ ε) = ε ⬝ᵥ ε := by
    rw [Matrix.mul_inv_rev, Matrix.mulVec_mulVec, Matrix.mul_assoc, Matrix.nonsing_inv_mul _ hd, Matrix.mul_one,
      ← Matrix.transpose_transpose L, dot_transpose, Matrix.transpose_transpose, Matrix.mulVec_mulVec,
      Matrix.mul_nonsing_inv _ hd', Matrix.one_mulVec]
  rw [gaussLogDensity, add_sub_cancel_left, h1]
  ring

theorem exists_noise (m x : Fin nx → ℝ) (L : Matrix (Fin nx) (Fin nx) ℝ) (hL : (L * Lᵀ).det ≠ 0) :
    ∃ ε, x = m + L *ᵥ ε := by
  have hd : IsUnit L.det := by
    rw [Matrix.det_mul] at hL
    exact isUnit_iff_ne_zero.mpr (left_ne_zero_of_mul hL)
  refine ⟨L⁻¹ *ᵥ (x - m), ?_⟩
  rw [Matrix.mulVec_mulVec, Matrix.mul_nonsing_inv _ hd, Matrix.one_mulVec]
  abel

theorem exists_driven : ∀ (ss : List (Step nx ny)) (x : ℕ → Fin nx → ℝ),
    (∀ s ∈ ss, (s.cholQ * s.cholQᵀ).det ≠ 0) → ∃ w, DrivenFrom ss x w
  | [], _, _ => ⟨0, trivial⟩
  | s :: ss, x, h => by
    obtain ⟨w, hw⟩ := exists_driven ss (fun n => x (n + 1)) fun s' hs' => h s' (List.mem_cons_of_mem _ hs')
    obtain ⟨ε, hε⟩ := exists_noise (s.F *ᵥ x 0 + s.c) (x 1) s.cholQ (h s List.mem_cons_self)
    exact ⟨pathCons ε w, hε, hw⟩

theorem logDensityFrom_cost : ∀ ss : List (Step nx ny), (∀ s ∈ ss, (s.cholQ * s.cholQᵀ).det ≠ 0) →
    ∃ C : ℝ, ∀ x w, DrivenFrom ss x w → logDensityFrom ss x = -(1 / 2) * stepCost ss x w + C
  | [], _ => ⟨0, fun x w _ => by simp [logDensityFrom, stepCost]⟩
  | s :: ss, h => by
    obtain ⟨C, hC⟩ := logDensityFrom_cost ss fun s' hs' => h s' (List.mem_cons_of_mem _ hs')
    refine ⟨C - (Fintype.card (Fin nx) / 2 * Real.log (2 * Real.pi) + 1 / 2 * Real.log (s.cholQ * s.cholQᵀ).det) -
      (Fintype.card (Obs s.y) / 2 * Real.log (2 * Real.pi) + 1 / 2 * Real.log s.R.det), fun x w hx => ?_⟩
    rw [logDensityFrom, stepCost, hC _ _ hx.2]
    have h1 := gaussLogDensity_noise (s.F *ᵥ x 0 + s.c) s.cholQ (h s List.mem_cons_self) (w 0)
    rw [← hx.1] at h1
    rw [h1, gaussLogDensity, misfit, Spec.residual]
    ring

/-- **C91.** For nonsingular covariances the means the Kalman smoother returns, in any mode, are the most probable
trajectory given the data: they maximise the joint density of states and data over all trajectories, and nothing else
does. -/
theorem kalman_smoother_map (qr : QR) (rng rng' : Prng K) (cb : Callbacks nx ny Inp) (u₀ : Inp)
    (us : List Inp) (hus : us ≠ []) (parallel parallel' : Bool) (key key' : Option K)
    (opts : SmootherOpts nx Inp) (hR : ∀ u ∈ us, (stepOf cb u).R.det ≠ 0)
    (hP0 : ((cb.getInit u₀).2 * ((cb.getInit u₀).2)ᵀ).det ≠ 0)
    (hQ : ∀ u ∈ us, ((stepOf cb u).cholQ * ((stepOf cb u).cholQ)ᵀ).det ≠ 0)
    (filterStates : List (FilterState nx Inp))
    (hf : (filter rng (buildFilter qr cb) (u₀ :: us) parallel key).result = .ok filterStates)
    (mi : Option (List Inp)) (hmi : mi = none ∨ mi = some us ∨ mi = some (u₀ :: us)) :
    ∃ states x, (smoother rng' FilterState.modelInputs (fun u => .ok (opts.dummy u))
        (buildSmoother qr cb.getDynamics opts) filterStates mi parallel' key').result = .ok states ∧
      (∀ t ≤ us.length, ∃ s, states[t]? = some s ∧ s.mean = some (x t)) ∧
      ∀ x', pathLogDensity (cb.getInit u₀).1 (cb.getInit u₀).2 (us.map (stepOf cb)) x' ≤
          pathLogDensity (cb.getInit u₀).1 (cb.getInit u₀).2 (us.map (stepOf cb)) x ∧
        (pathLogDensity (cb.getInit u₀).1 (cb.getInit u₀).2 (us.map (stepOf cb)) x' =
            pathLogDensity (cb.getInit u₀).1 (cb.getInit u₀).2 (us.map (stepOf cb)) x →
          ∀ t ≤ us.length, x' t = x t) := by
  have hP : ∀ (t : ℕ) s L u, filterStates[t]? = some s → s.cholCov = some L → us[t]? = some u →
      ((stepOf cb u).F * (L * Lᵀ) * ((stepOf cb u).F)ᵀ +
        (stepOf cb u).cholQ * ((stepOf cb u).cholQ)ᵀ).det ≠ 0 := by
    intro t s L u _ _ hu
    rw [add_comm]
    exact (isGram_of _).det_add_ne_zero (hQ u (List.mem_of_getElem? hu)) ((isGram_of L).conj _)
  obtain ⟨states, x, ε, w, h1, h2, h3, h4⟩ := kalman_smoother_least_squares qr rng rng' cb u₀ us hus parallel
    parallel' key key' opts hR filterStates hf hP mi hmi
  have hQ' : ∀ s ∈ us.map (stepOf cb), (s.cholQ * s.cholQᵀ).det ≠ 0 := by
    intro s hs
    obtain ⟨u, hu, rfl⟩ := List.mem_map.mp hs
    exact hQ u hu
  obtain ⟨C, hC⟩ := logDensityFrom_cost (us.map (stepOf cb)) hQ'
  have hval : ∀ x ε w, Driven (cb.getInit u₀).1 (cb.getInit u₀).2 (us.map (stepOf cb)) x ε w →
      pathLogDensity (cb.getInit u₀).1 (cb.getInit u₀).2 (us.map (stepOf cb)) x =
        -(1 / 2) * pathCost (us.map (stepOf cb)) x ε w + (C - (Fintype.card (Fin nx) / 2 * Real.log (2 * Real.pi) +
          1 / 2 * Real.log ((cb.getInit u₀).2 * ((cb.getInit u₀).2)ᵀ).det)) := by
    intro x ε w hx
    have h5 := gaussLogDensity_noise (cb.getInit u₀).1 (cb.getInit u₀).2 hP0 ε
    rw [← hx.1] at h5
    rw [pathLogDensity, h5, hC x w hx.2, pathCost]
    ring
  refine ⟨states, x, h1, h2, fun x' => ?_⟩
  obtain ⟨ε', hε'⟩ := exists_noise (cb.getInit u₀).1 (x' 0) (cb.getInit u₀).2 hP0
  obtain ⟨w', hw'⟩ := exists_driven (us.map (stepOf cb)) x' hQ'
  have hd' : Driven (cb.getInit u₀).1 (cb.getInit u₀).2 (us.map (stepOf cb)) x' ε' w' := ⟨hε', hw'⟩
  obtain ⟨h6, h7⟩ := h4 x' ε' w' hd'
  rw [hval x ε w h3, hval x' ε' w' hd']
  exact ⟨by linarith, fun h => (h7 (by linarith)).2.1⟩

/-- Non-vacuity for C91: the random-walk models of C26 meet the hypotheses, for every length of the data. -/
example (qr : QR) (rng : Prng K) (n : ℕ) (parallel : Bool) (key : Option K) (opts : SmootherOpts 1 Unit) :
    ∃ filterStates, (filter rng (buildFilter qr (scalarModel 1 1)) (() :: List.replicate (n + 1) ()) parallel
        key).result = .ok filterStates ∧
      ∃ states x, (smoother rng FilterState.modelInputs (fun u => .ok (opts.dummy u))
        (buildSmoother qr (scalarModel 1 1).getDynamics opts) filterStates none parallel key).result = .ok states ∧
      (∀ t ≤ n + 1, ∃ s, states[t]? = some s ∧ s.mean = some (x t)) ∧
      ∀ x', pathLogDensity ((scalarModel 1 1).getInit ()).1 ((scalarModel 1 1).getInit ()).2
          ((List.replicate (n + 1) ()).map (stepOf (scalarModel 1 1))) x' ≤
        pathLogDensity ((scalarModel 1 1).getInit ()).1 ((scalarModel 1 1).getInit ()).2
          ((List.replicate (n + 1) ()).map (stepOf (scalarModel 1 1))) x := by
  have hR : ∀ u ∈ List.replicate (n + 1) (), (stepOf (scalarModel 1 1) u).R.det ≠ 0 := fun u _ => scalarModel_R 1 1 u
  obtain ⟨fs, hfs, -⟩ := kalman_filter_exact qr rng (scalarModel 1 1) () (List.replicate (n + 1) ()) parallel key hR
  obtain ⟨st, x, h1, h2, h3⟩ := kalman_smoother_map qr rng rng (scalarModel 1 1) () (List.replicate (n + 1) ())
    (by simp) parallel parallel key key opts hR (by simp [scalarModel, Matrix.mul_apply])
    (fun u _ => by simp [stepOf, scalarModel, Matrix.mul_apply]) fs hfs none (.inl rfl)
  rw [List.length_replicate] at h2
  exact ⟨fs, hfs, st, x, h1, h2, fun x' => (h3 x').1⟩

end

end Cuthbert.Kalman
