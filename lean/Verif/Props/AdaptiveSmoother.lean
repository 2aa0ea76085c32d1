import Verif.Props.BackwardSampling
import Verif.Props.MarginalFilter

/-!
# Properties: the particle smoother with an adaptive resampling function (C98)
-/

namespace Cuthbert.SMC
open MeasureTheory Set Resampling Spec
open scoped ENNReal

noncomputable section

variable {K X Inp : Type} {N n : ℕ}

/-- Two states, or exceptions, that differ in their weights only. -/
inductive SameButWeights : Except Err (PSState K X Inp N) → Except Err (PSState K X Inp N) → Prop
  | error (e : Err) : SameButWeights (.error e) (.error e)
  | ok (n : ℕ) (k : K) (x : Fin n → X) (a : Fin n → Fin N) (u : Inp) (w w' : Fin n → Fl) :
    SameButWeights (.ok ⟨n, k, x, a, u, w⟩) (.ok ⟨n, k, x, a, u, w'⟩)

/-- The weights of the later state are not read. -/
theorem combine_sameButWeights (sampler : BackwardSampler K X N) (logPotential : X → X → Inp → Fl)
    (s : Except Err (PSState K X Inp N)) {q q' : Except Err (PSState K X Inp N)} (h : SameButWeights q q') :
    (do smootherCombine sampler logPotential (← s) (← q)) = (do smootherCombine sampler logPotential (← s) (← q')) := by
  cases h with
  | error e => rfl
  | ok n k x a u w w' =>
    cases s with
    | error e => rfl
    | ok s => rfl

theorem laxScanRev_congr {σ χ υ : Type*} (body : σ → χ → σ × υ) {a b : σ} (h : ∀ x, body a x = body b x) :
    ∀ xs : List χ, xs ≠ [] → laxScanRev body a xs = laxScanRev body b xs
  | [], h => (h rfl).elim
  | [x], _ => by simp only [laxScanRev, h]
  | x :: y :: xs, _ => by
    have e : ∀ s, laxScanRev body s (x :: y :: xs) = (let rest := laxScanRev body s (y :: xs)
        let r := body rest.1 x
        (r.1, r.2 :: rest.2)) := fun _ => rfl
    rw [e, e, laxScanRev_congr body h (y :: xs) (by simp)]

/-- A smoother run reads the final smoother state only through its weights-free part. -/
theorem smoother_sameButWeights (rng : Prng K) (inputsOf : Except Err (PFState K X Inp N) → Inp)
    (dummy : Inp → Except Err Inp) (logPotential : X → X → Inp → Fl) (sampler : BackwardSampler K X N)
    (R : Resampler K N X) (n : ℕ) (F : List (Except Err (PFState K X Inp N))) (s s' : Except Err (PFState K X Inp N))
    (us : List Inp) (key : Option K)
    (h : ∀ u k, SameButWeights ((particleSmoother rng dummy logPotential sampler R n).convert s u k)
      ((particleSmoother rng dummy logPotential sampler R n).convert s' u k)) :
    (smoother rng inputsOf dummy (particleSmoother rng dummy logPotential sampler R n) (F ++ [s]) (some us) false
      key).result.map List.dropLast =
    (smoother rng inputsOf dummy (particleSmoother rng dummy logPotential sampler R n) (F ++ [s']) (some us) false
      key).result.map List.dropLast := by
  unfold smoother
  simp only [List.length_append, List.length_singleton, Option.getD_some, List.getLast?_append, List.getLast?_singleton,
    Option.some_or, List.dropLast_concat, Bool.false_eq_true, if_false]
  split
  · rfl
  · rename_i inputs _
    cases hi : inputs[0]? with
    | none => rfl
    | some u =>
      cases hk : (prepareKeys rng key (F.length + 1))[0]? with
      | none => rfl
      | some k0 =>
        cases hd : dummy u with
        | error e => simp only [hd]
        | ok d =>
          simp only [hd, Except.map, List.dropLast_concat]
          congr 1
          obtain ⟨xs, hxs⟩ : ∃ xs, xs = (F.zip inputs).zip (prepareKeys rng key (F.length + 1)).tail := ⟨_, rfl⟩
          rw [← hxs]
          by_cases h0 : xs = []
          · rw [h0]
            rfl
          · refine congrArg Prod.snd (laxScanRev_congr _ (fun x => ?_) xs h0)
            have h1 := combine_sameButWeights sampler logPotential
              ((particleSmoother rng dummy logPotential sampler R n).smootherPrepare x.1.1 x.1.2 x.2) (h d k0)
            exact Prod.ext h1 h1

/-- A filter state with other weights. -/
def PFState.reweight (s : PFState K X Inp N) (l : Fin N → Fl) : PFState K X Inp N := { s with logWeights := l }

/-- The effective sample size is at least `θ N`. -/
def EnoughSamples (θ : ℝ) (l : Fin N → Fl) : Prop := IsLogits l ∧ ∃ r : ℝ, ess l = Fl.fin r ∧ θ * N ≤ r

theorem EnoughSamples.adaptive_eq {θ : ℝ} {l : Fin N → Fl} (h : EnoughSamples θ l) (R : Resampler K N X) (k : K)
    (x : Fin N → X) : adaptive R θ k l x N = .ok ⟨id, l, x⟩ := by
  obtain ⟨hl, r, h1, h2⟩ := h
  obtain ⟨r', h3, -, h4⟩ := adaptive_iff R θ k hl x
  refine h4 ?_
  rw [← Fl.fin.inj (h1.symm.trans h3)]
  exact not_lt.mpr h2

/-- **C98** (negation). Where an adaptive resampling function is given to the particle smoother, and the effective
sample size of the final filter state is at least the threshold, all smoothed states before the final one are the
same whatever the final weights are, for every backward sampling function: what the last observation says about
earlier states is lost. -/
theorem adaptive_smoother_ignores_final_weights (rng : Prng K) (inputsOf : Except Err (PFState K X Inp N) → Inp)
    (dummy : Inp → Except Err Inp) (logPotential : X → X → Inp → Fl) (sampler : BackwardSampler K X N)
    (R : Resampler K N X) {θ : ℝ} (F : List (Except Err (PFState K X Inp N))) (s : PFState K X Inp N)
    {l l' : Fin N → Fl} (hl : EnoughSamples θ l) (hl' : EnoughSamples θ l') (us : List Inp) (key : Option K) :
    (smoother rng inputsOf dummy (particleSmoother rng dummy logPotential sampler (adaptive R θ) N)
      (F ++ [.ok (s.reweight l)]) (some us) false key).result.map List.dropLast =
    (smoother rng inputsOf dummy (particleSmoother rng dummy logPotential sampler (adaptive R θ) N)
      (F ++ [.ok (s.reweight l')]) (some us) false key).result.map List.dropLast := by
  refine smoother_sameButWeights rng inputsOf dummy logPotential sampler (adaptive R θ) N F _ _ us key fun u k => ?_
  cases k with
  | none => exact .error _
  | some k =>
    change SameButWeights (convertToSmoother rng dummy (adaptive R θ) N (s.reweight l) (some u) (some k))
      (convertToSmoother rng dummy (adaptive R θ) N (s.reweight l') (some u) (some k))
    have e : ∀ l : Fin N → Fl, EnoughSamples θ l →
        convertToSmoother rng dummy (adaptive R θ) N (s.reweight l) (some u) (some k) =
          (dummy u).map fun d => ⟨N, rng.nth k 2 0, s.particles, s.ancestors, d, l⟩ := by
      intro l hl
      unfold convertToSmoother
      simp only [Option.getD_some, PFState.reweight]
      rw [hl.adaptive_eq]
      cases dummy u <;> rfl
    rw [e l hl, e l' hl']
    cases dummy u with
    | error e => exact .error _
    | ok d => exact .ok ..

/-- **C98** (partial): below the threshold the adaptive resampling function and the function it wraps give the same
run. -/
theorem adaptive_smoother_below_threshold_partial (rng : Prng K) (inputsOf : Except Err (PFState K X Inp N) → Inp)
    (dummy : Inp → Except Err Inp) (logPotential : X → X → Inp → Fl) (sampler : BackwardSampler K X N)
    (R : Resampler K N X) {θ : ℝ} (F : List (Except Err (PFState K X Inp N))) (s : PFState K X Inp N)
    (hl : IsLogits s.logWeights) (hs : ¬ EnoughSamples θ s.logWeights) (us : List Inp) (parallel : Bool)
    (key : Option K) :
    smoother rng inputsOf dummy (particleSmoother rng dummy logPotential sampler (adaptive R θ) N)
      (F ++ [.ok s]) (some us) parallel key =
    smoother rng inputsOf dummy (particleSmoother rng dummy logPotential sampler R N)
      (F ++ [.ok s]) (some us) parallel key := by
  have e : ∀ u k, (particleSmoother rng dummy logPotential sampler (adaptive R θ) N).convert (.ok s) u k =
      (particleSmoother rng dummy logPotential sampler R N).convert (.ok s) u k := by
    intro u k
    cases k with
    | none => rfl
    | some k =>
      change convertToSmoother rng dummy (adaptive R θ) N s (some u) (some k) =
        convertToSmoother rng dummy R N s (some u) (some k)
      unfold convertToSmoother
      simp only
      obtain ⟨r, h1, h2, -⟩ := adaptive_iff R θ (rng.nth k 2 1) hl s.particles
      rw [h2 (lt_of_not_ge fun h => hs ⟨hl, r, h1, h⟩)]
  unfold smoother
  simp only [List.length_append, List.length_singleton, Option.getD_some, List.getLast?_append, List.getLast?_singleton,
    Option.some_or, List.dropLast_concat]
  split
  · rfl
  · rename_i inputs _
    cases hi : inputs[0]? with
    | none => rfl
    | some u =>
      cases hk : (prepareKeys rng key (F.length + 1))[0]? with
      | none => rfl
      | some k0 =>
        cases hd : dummy u with
        | error e => simp only [hd]; rfl
        | ok d =>
          simp only [hd, e]
          rfl

/-! ### The bias -/

/-- A fair coin that is tossed once and observed once: heads make the observation twice as likely. -/
def copyModel (rng : Rng K) : FKModel K Bool Unit where
  initSample k _ := coin rng k
  propagate _ x _ := x
  logPotential _ x' _ := if x' then Fl.fin (Real.log 2) else 0

theorem ess_copy [NeZero N] (x : Fin N → Bool) {θ : ℝ} (hθ : θ ≤ 8 / 9) :
    EnoughSamples θ fun i => if x i then Fl.fin (Real.log 2) else 0 := by
  obtain ⟨w, hw⟩ : ∃ w : Fin N → ℝ, w = fun i => if x i then 2 else 1 := ⟨_, rfl⟩
  have hl : IsLogits fun i => if x i then Fl.fin (Real.log 2) else (0 : Fl) := by
    refine ⟨fun i => ?_, 0, ?_⟩ <;> dsimp only <;> split_ifs <;> trivial
  have h1 : ∀ i, (if x i then Fl.fin (Real.log 2) else (0 : Fl)).lik = w i := by
    intro i
    rw [hw]
    dsimp only
    split_ifs
    · simp only [Fl.lik]
      exact Real.exp_log (by norm_num)
    · simp only [Fl.lik, Real.exp_zero]
  refine ⟨hl, _, ess_eq hl, ?_⟩
  simp only [h1]
  have h2 : ∑ i, w i ^ 2 = 3 * ∑ i, w i - 2 * N := by
    rw [Finset.mul_sum]
    have h3 : (2 * N : ℝ) = ∑ _i : Fin N, 2 := by simp [mul_comm]
    rw [h3, ← Finset.sum_sub_distrib]
    refine Finset.sum_congr rfl fun i _ => ?_
    rw [hw]
    dsimp only
    split_ifs <;> norm_num
  have hN : (0 : ℝ) < N := by exact_mod_cast NeZero.pos N
  have h4 : (N : ℝ) ≤ ∑ i, w i := by
    have h3 : (N : ℝ) = ∑ _i : Fin N, 1 := by simp
    rw [h3]
    refine Finset.sum_le_sum fun i _ => ?_
    rw [hw]
    dsimp only
    split_ifs <;> norm_num
  rw [h2, le_div_iff₀ (by linarith)]
  nlinarith [sq_nonneg (3 * ∑ i, w i - 4 * N), mul_le_mul_of_nonneg_right hθ (mul_nonneg hN.le (by linarith : 0 ≤ 3 * ∑ i, w i - 2 * (N : ℝ)))]

section biased

variable [MeasurableSpace K] {P : Measure K} {rng : Rng K} (h : IdealRng rng P)

include h

theorem copyModel_fk (f : Bool → ℝ≥0∞) :
    fkExp ((copyModel rng).init P ()) [(copyModel rng).step P ()] (fun p => f (p 0)) = f true + f false / 2 := by
  have := h.prob
  have h1 : ∀ x, fkPathExp [(copyModel rng).step P ()] (fun p => f (p 0)) x = (if x then 2 else 1) * f x := by
    intro x
    simp only [fkPathExp, FKModel.step]
    change ∫⁻ x' : Bool, _ ∂(P.map fun _ => x) = _
    rw [lintegral_map (measurable_of_finite _) measurable_const, lintegral_const, measure_univ, mul_one]
    change _ * f x = _
    congr 1
    cases x
    · simp [copyModel, Fl.zero_def, Fl.lik]
    · simp only [copyModel, if_true, Fl.lik]
      rw [Real.exp_log (by norm_num)]
      simp
  simp only [fkExp, h1]
  change ∫⁻ x : Bool, _ ∂(P.map (coin rng)) = _
  rw [lintegral_map (measurable_of_finite _) (measurable_coin h)]
  have h2 : ∀ k, (if coin rng k then 2 else 1 : ℝ≥0∞) * f (coin rng k) =
      2 * f true * (if true = coin rng k then 1 else 0) + f false * (if false = coin rng k then 1 else 0) := by
    intro k
    cases coin rng k <;> simp
  have hm : ∀ y : Bool, Measurable fun k => (if y = coin rng k then 1 else 0 : ℝ≥0∞) := fun y => by
    have h4 : Measurable fun z : Bool => (if y = z then 1 else 0 : ℝ≥0∞) := measurable_of_finite _
    exact h4.comp (measurable_coin h)
  simp only [h2]
  rw [lintegral_add_left ((hm true).const_mul _), lintegral_const_mul _ (hm true), lintegral_const_mul _ (hm false),
    coin_law h, coin_law h, mul_comm (2 : ℝ≥0∞), mul_assoc, ENNReal.mul_inv_cancel (by norm_num) (by norm_num), mul_one,
    div_eq_mul_inv]

/-- **C98** (witness). A fair coin is tossed and observed once, so that heads have posterior probability
`1 / (3 / 2) = 2 / 3`. The particle filter followed by the tracing smoother, both with adaptive resampling,
estimates it by the proportion of heads among the equally weighted smoothed particles at time 0, whose expectation is
`1 / 2` for every number of particles: the error does not go away. (At time 1, where the coin is the same, the
weights are returned with the particles.) -/
theorem adaptive_smoother_biased [NeZero N] (pf : Platform) {R' : Resampler K N Bool}
    (hR' : R' = multinomial rng pf ∨ R' = systematic rng pf ∨ R' = killing rng pf) (R : Resampler K N Bool)
    {θ' θ : ℝ} (h0 : 0 ≤ θ') (h1 : θ' ≤ 1) (hθ : θ ≤ 8 / 9) (dummy : Bool)
    (inputsOf : Except Err (PFState K Bool Unit N) → Unit) :
    fkExp ((copyModel rng).init P ()) [(copyModel rng).step P ()] (fun p => if p 0 then 1 else 0) = 1 ∧
    fkExp ((copyModel rng).init P ()) [(copyModel rng).step P ()] (fun _ => 1) = 3 / 2 ∧
    ∃ (S : K → ℕ → PFState K Bool Unit N) (x : K → Fin N → Bool),
      (∀ k, filter rng.toPrng (particleFilter rng.toPrng (copyModel rng) dummy N (adaptive R' θ')) [(), ()] false
        (some k) = ⟨false, .ok [.ok (S k 0), .ok (S k 1)]⟩) ∧
      (∀ k k', ∃ k₀ k₁ : K,
        (smoother rng.toPrng inputsOf (fun _ => .ok ()) (particleSmoother rng.toPrng (fun _ => .ok ())
          (copyModel rng).logPotential tracing (adaptive R θ) N) [.ok (S k 0), .ok (S k 1)] (some [()]) false
            (some k')).result =
          .ok [.ok ⟨N, k₀, x k, id, (), fun _ => -Fl.log (Fl.fin N)⟩,
            .ok ⟨N, k₁, x k, id, (), fun i => if x k i then Fl.fin (Real.log 2) else 0⟩]) ∧
      ∫⁻ k, (∑ i, if x k i then 1 else 0) / N ∂P = 1 / 2 := by
  have := h.prob
  refine ⟨?_, ?_, ?_⟩
  · have h2 := copyModel_fk h fun b => if b then 1 else 0
    simpa using h2
  · have h2 := copyModel_fk h fun _ => 1
    rw [h2]
    have h3 : (3 : ℝ≥0∞) = 2 + 1 := by norm_num
    rw [h3, ENNReal.add_div, ENNReal.div_self (by norm_num) (by norm_num)]
  · obtain ⟨I, L, hU⟩ : ∃ I L, Uses R' I L := by
      rcases hR' with rfl | rfl | rfl
      · exact ⟨_, _, uses_multinomial rng pf⟩
      · exact ⟨_, _, uses_systematic rng pf⟩
      · exact ⟨_, _, uses_killing rng pf⟩
    have hA := uses_adaptive hU θ'
    obtain ⟨S, hS⟩ : ∃ S, S = pfRun rng.toPrng (copyModel rng) (adaptIdx I θ') (adaptLogits L θ') () [()] := ⟨_, rfl⟩
    have hrun := fun k => filter_pf_eq (rng := rng.toPrng) (mdl := copyModel rng) hA dummy () [()] k
    have hz : ∀ k : K, adaptIdx I θ' k (fun _ => (0 : Fl)) = id ∧ adaptLogits L θ' k (fun _ => (0 : Fl)) = fun _ => 0 := by
      intro k
      have h2 := hA k (fun _ => (0 : Fl)) (fun i : Fin N => dummy)
      have h3 : adaptive R' θ' k (fun _ => (0 : Fl)) (fun i : Fin N => dummy) N = .ok ⟨id, fun _ => 0, fun _ => dummy⟩ :=
        adaptive_const R' h0 h1 k 0 _
      have h4 := Except.ok.inj (h2.symm.trans h3)
      simp only [Resampled.mk.injEq] at h4
      exact ⟨h4.1, h4.2.1⟩
    have hc0 : ∀ k, (S k 0).core = (fun i => coin rng (rng.nth (rng.nth k 2 0) N i), fun _ => 0, 0) ∧
        (S k 0).ancestors = id := by
      intro k
      rw [hS, pfRun_zero]
      exact ⟨rfl, rfl⟩
    have hc1 : ∀ k, (S k 1).particles = (fun i => coin rng (rng.nth (rng.nth k 2 0) N i)) ∧
        (S k 1).logWeights = (fun i => if coin rng (rng.nth (rng.nth k 2 0) N i) then Fl.fin (Real.log 2) else 0) ∧
        (S k 1).ancestors = id := by
      intro k
      rw [hS, pfRun_succ () [()] k 0 (by simp), pfRun_zero]
      simp only [stepTo, coreStep, pfInit, PFState.core, copyModel, (hz _).1, (hz _).2, add_zero]
      exact ⟨rfl, rfl, trivial⟩
    refine ⟨S, fun k i => coin rng (rng.nth (rng.nth k 2 0) N i), fun k => by rw [hrun k, hS]; rfl, fun k k' => ?_, ?_⟩
    · have hE := ess_copy (fun i => coin rng (rng.nth (rng.nth k 2 0) N i)) hθ
      obtain ⟨keys, inputs, weights, h4, h5, h6⟩ := tracing_smoother_paths rng.toPrng inputsOf (fun _ => .ok ())
        (copyModel rng).logPotential (adaptive R θ) N (S k) () [] k' rfl rfl (T := 1) rfl
        (by rw [(hc1 k).1, (hc1 k).2.1]; exact hE.adaptive_eq R _ _) (fun m => by rw [(hc1 k).1]; rfl)
      refine ⟨keys 0, keys 1, Eq.trans h4 ?_⟩
      have e1 : (S k 0).particles = fun i => coin rng (rng.nth (rng.nth k 2 0) N i) := congrArg (fun c => c.1) (hc0 k).1
      have e2 : weights 0 = fun _ => -Fl.log (Fl.fin N) := funext (h5 0 (by norm_num))
      have e3 : ∀ m, lineage (fun s => (S k s).ancestors) 1 m 0 = m := fun m => by
        simp only [lineage, le_refl, if_true, (hc1 k).2.2, id_eq]
      have e4 : ∀ m, lineage (fun s => (S k s).ancestors) 1 m 1 = m := fun m => lineage_self _ _ _ _ le_rfl
      have e5 : List.range (1 + 1) = [0, 1] := rfl
      rw [e5]
      simp only [List.map_cons, List.map_nil, e2, h6, ancestralPath, min_eq_left (zero_le_one' ℕ), min_self, e3, e4, e1,
        (hc1 k).1, (hc0 k).2, (hc1 k).2.2, id_eq]
      rfl
    · have hm : ∀ i : Fin N, Measurable fun k => (if coin rng (rng.nth (rng.nth k 2 0) N i) then 1 else 0 : ℝ≥0∞) := by
        intro i
        have h4 : Measurable fun z : Bool => (if z then 1 else 0 : ℝ≥0∞) := measurable_of_finite _
        exact h4.comp ((measurable_coin h).comp ((h.measurePreserving_nth N i).comp
          (h.measurePreserving_nth 2 0)).measurable)
      have hi : ∀ i : Fin N, ∫⁻ k, (if coin rng (rng.nth (rng.nth k 2 0) N i) then 1 else 0 : ℝ≥0∞) ∂P = 2⁻¹ := by
        intro i
        have h4 : Measurable fun κ => (if coin rng κ then 1 else 0 : ℝ≥0∞) := by
          have h5 : Measurable fun z : Bool => (if z then 1 else 0 : ℝ≥0∞) := measurable_of_finite _
          exact h5.comp (measurable_coin h)
        have h6 : ∫⁻ k, (if coin rng (rng.nth (rng.nth k 2 0) N i) then 1 else 0 : ℝ≥0∞) ∂P =
            ∫⁻ κ, (if coin rng κ then 1 else 0 : ℝ≥0∞) ∂P :=
          ((h.measurePreserving_nth N i).comp (h.measurePreserving_nth 2 0)).lintegral_comp h4
        rw [h6, ← coin_law h true]
        refine lintegral_congr fun k => ?_
        cases coin rng k <;> simp
      simp only [div_eq_mul_inv]
      rw [lintegral_mul_const _ (Finset.measurable_fun_sum _ fun i _ => hm i), lintegral_finsetSum _ fun i _ => hm i,
        Finset.sum_congr rfl fun i _ => hi i, Finset.sum_const, Finset.card_univ, Fintype.card_fin, nsmul_eq_mul, one_mul,
        mul_comm (N : ℝ≥0∞), mul_assoc, ENNReal.mul_inv_cancel (by exact_mod_cast NeZero.ne N)
        (ENNReal.natCast_ne_top N), mul_one]

end biased

/-- Non-vacuity for C98: two particles, with equal weights and with weights 2 : 1, and the threshold 1/2. -/
example : EnoughSamples (1 / 2) (fun _ : Fin 2 => (0 : Fl)) ∧
    EnoughSamples (1 / 2) (fun i : Fin 2 => if decide (i = 0) then Fl.fin (Real.log 2) else 0) :=
  ⟨ess_copy (fun _ => false) (by norm_num), ess_copy (fun i => decide (i = 0)) (by norm_num)⟩

/-- Non-vacuity for C98: three particles, one of which has weight zero, fall below the threshold 3/4. -/
example : IsLogits ![Fl.fin 0, Fl.ninf, Fl.fin 0] ∧ ¬ EnoughSamples (3 / 4) ![Fl.fin 0, Fl.ninf, Fl.fin 0] := by
  have hl : IsLogits ![Fl.fin 0, Fl.ninf, Fl.fin 0] :=
    ⟨fun i => by fin_cases i <;> trivial, 0, trivial⟩
  refine ⟨hl, ?_⟩
  rintro ⟨-, r, h1, h2⟩
  have h3 := Fl.fin.inj ((ess_eq hl).symm.trans h1)
  simp [Fin.sum_univ_three, Fl.lik] at h3
  rw [← h3] at h2
  norm_num at h2

/-- Non-vacuity for C98: an ideal generator with JAX's prefix splitting exists. -/
example : ∃ rng : Rng Key, ∃ (S : Key → ℕ → PFState Key Bool Unit 100) (x : Key → Fin 100 → Bool),
    (∀ k, filter rng.toPrng (particleFilter rng.toPrng (copyModel rng) false 100 (adaptive (systematic rng .cpu) (1 / 2)))
      [(), ()] false (some k) = ⟨false, .ok [.ok (S k 0), .ok (S k 1)]⟩) ∧
    ∫⁻ k, (∑ i, if x k i then 1 else 0) / (100 : ℕ) ∂keyLaw = 1 / 2 := by
  obtain ⟨rng, h1, -⟩ := exists_ideal_prefix
  obtain ⟨-, -, S, x, h2, -, h3⟩ := adaptive_smoother_biased (N := 100) h1 .cpu (.inr (.inl rfl)) (systematic rng .cpu)
    (θ' := 1 / 2) (θ := 1 / 2) (by norm_num) (by norm_num) (by norm_num) false (fun _ => ())
  exact ⟨rng, S, x, h2, h3⟩

end

end Cuthbert.SMC
