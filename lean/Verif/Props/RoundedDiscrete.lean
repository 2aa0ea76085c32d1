import Verif.Lemmas.RoundedDiscrete
import Verif.Lemmas.Bracketing
import Verif.Lemmas.Rounding
import Verif.Props.Discrete
import Mathlib.Analysis.SpecialFunctions.Log.Deriv
import Mathlib.Algebra.Order.Field.Power

/-!
# C128, C129: rounding errors of the discrete filter
-/

namespace Cuthbert.Discrete
open Cuthbert Fl Spec

variable {n : ℕ} {Inp K : Type*}

/-- Bounds on the logarithms that occur in a run over `T` steps. `M.future s m i` is the probability (density) of
`y_{s+1}..y_{s+m}` given `x_s = i`. The sequential filter needs it for single observations only. -/
structure Bounds (M : HMM (Fin (n + 1))) (T : ℕ) (parallel : Bool) (D L : ℝ) : Prop where
  evidence : ∀ t ≤ T, |Real.log (M.evidence t)| ≤ L
  future : ∀ s m, 1 ≤ m → s + m ≤ T → (parallel = true ∨ m = 1) → ∀ i, |Real.log (M.future s m i)| ≤ L
  future_spread : ∀ s m, 1 ≤ m → s + m ≤ T → (parallel = true ∨ m = 1) → ∀ i j,
    Real.log (M.future s m i) - Real.log (M.future s m j) ≤ D
  lik : ∀ t < T, ∀ j, 0 < M.lik t j → |Real.log (M.lik t j)| ≤ L
  lik_spread : ∀ t < T, ∀ i j, 0 < M.lik t i → 0 < M.lik t j → Real.log (M.lik t i) - Real.log (M.lik t j) ≤ D

section accuracy

variable {M : HMM (Fin (n + 1))} {getInit : Inp → Fin (n + 1) → Fl}
  {getTrans : Inp → Fin (n + 1) → Fin (n + 1) → Fl} {getObs : Inp → Fin (n + 1) → Fl}
  {inputs : List Inp}

/-- The matrix that belongs to the elements `s, ..., s + m - 1` of the scan. Element 0 is the initial distribution. -/
def blockMat (M : HMM (Fin (n + 1))) : ℕ → ℕ → Matrix (Fin (n + 1)) (Fin (n + 1)) ℝ
  | 0, m => fun _ k => M.filterJoint (m - 1) k
  | s + 1, m => M.stepsFrom s m

theorem rows_mul_stepsFrom (r m : ℕ) : (Matrix.of fun _ k => M.filterJoint r k :
    Matrix (Fin (n + 1)) (Fin (n + 1)) ℝ) * M.stepsFrom r m = fun _ k => M.filterJoint (r + m) k := by
  induction m with
  | zero => simp only [HMM.stepsFrom, mul_one, Nat.add_zero]; rfl
  | succ m ih =>
    rw [HMM.stepsFrom, ← Matrix.mul_assoc, ih]
    exact rows_mul_stepMat (r + m)

theorem stepsFrom_add (s m m' : ℕ) : M.stepsFrom s m * M.stepsFrom (s + m) m' = M.stepsFrom s (m + m') := by
  induction m' with
  | zero => simp [HMM.stepsFrom]
  | succ m' ih => rw [HMM.stepsFrom, ← Matrix.mul_assoc, ih, ← Nat.add_assoc, HMM.stepsFrom, Nat.add_assoc]

theorem blockMat_mul (s m m' : ℕ) (hm : 1 ≤ m) : blockMat M s m * blockMat M (s + m) m' = blockMat M s (m + m') := by
  obtain ⟨r, rfl⟩ : ∃ r, m = r + 1 := ⟨m - 1, by omega⟩
  cases s with
  | zero =>
    rw [show 0 + (r + 1) = r + 1 by omega]
    refine (rows_mul_stepsFrom r m').trans ?_
    funext i k
    simp only [blockMat]
    congr 1
    omega
  | succ s =>
    rw [show s + 1 + (r + 1) = s + (r + 1) + 1 by omega]
    exact stepsFrom_add s (r + 1) m'

theorem rowSum_blockMat_zero (m : ℕ) (i : Fin (n + 1)) : rowSum (blockMat M 0 m) i = M.evidence (m - 1) := by
  rw [M.evidence_eq_sum]; rfl

theorem rowSum_blockMat_succ (s m : ℕ) (i : Fin (n + 1)) : rowSum (blockMat M (s + 1) m) i = M.future s m i := rfl

theorem blockMat_good (hR : Represents M getInit getTrans getObs inputs) (hV : Valid M)
    (hpos : RowsPositive M (inputs.length - 1)) (s m : ℕ) (hm : 1 ≤ m) (hsm : s + m ≤ inputs.length) :
    Good (blockMat M s m) := by
  have hone : ∀ s, s + 1 ≤ inputs.length → Good (blockMat M s 1) := by
    intro s hs
    cases s with
    | zero => exact good_init hV
    | succ s =>
      have := stepMat_good hR hV _ hpos s (by omega) (by omega)
      simpa [blockMat, HMM.stepsFrom] using this
  induction m, hm using Nat.le_induction with
  | base => exact hone s (by omega)
  | succ m hm ih =>
    rw [← blockMat_mul s m 1 hm]
    exact good_mul (ih (by omega)) (hone (s + m) (by omega))

theorem errConst_nonneg {D L : ℝ} (hD : 0 ≤ D) (hL : 0 ≤ L) : 0 ≤ errConst n D L := by
  unfold errConst; positivity

/-- **C128.** For every arithmetic in which each operation has a relative error of at most `u`, and every hidden Markov model
with non-degenerate rows, the filter (sequential or parallel, whose bracketing of the combinations differs) returns at time `t`
probabilities whose relative error is at most `2 (2t + 1) C u` and a log normalising constant whose absolute error is at most
`(2t + 1) C u`, with `C = 3 N + D + 12 L + 15` for `N` states. The error does not grow exponentially and does not depend on
how small the probabilities are. -/
theorem discrete_filter_rounding {A : Arith} {u B D L : ℝ} (hA : A.Accurate u B)
    (hR : Represents M getInit getTrans getObs inputs) (hV : Valid M) (hne : inputs ≠ [])
    (hpos : RowsPositive M (inputs.length - 1)) (parallel : Bool) (hb : Bounds M (inputs.length - 1) parallel D L)
    (hD : 0 ≤ D) (hB : D + 1 ≤ B) (hu : (2 * (inputs.length - 1 : ℕ) + 1) * (errConst n D L * u) ≤ 1 / 4)
    (rng : Prng K) (key : Option K) :
    ∃ states, (filter rng (buildFilterWith (K := K) A getInit getTrans getObs) inputs parallel key).result = .ok states ∧
      states.length = inputs.length ∧
      ∀ (t : ℕ) (s : FilterState n Inp), states[t]? = some s → ∃ (d : Fin (n + 1) → ℝ) (l : ℝ),
        (∀ k, s.dist k = fin (d k)) ∧ s.logNormalizingConstant = fin l ∧
        (∀ k, Near (2 * ((2 * t + 1) * (errConst n D L * u))) (M.filterLaw t k) (d k)) ∧
        |l - Real.log (M.evidence t)| ≤ (2 * t + 1) * (errConst n D L * u) := by
  have hL0 : 0 ≤ L := (abs_nonneg _).trans (hb.evidence 0 (by omega))
  have hu0 := hA.unit_nonneg
  obtain ⟨C, hC⟩ : ∃ C, C = errConst n D L * u := ⟨_, rfl⟩
  have hC0 : 0 ≤ C := hC ▸ mul_nonneg (errConst_nonneg hD hL0) hu0
  have hlen : 1 ≤ inputs.length := List.length_pos_iff.mpr hne
  have hle : ∀ m : ℕ, 1 ≤ m → m ≤ inputs.length → (2 * (m : ℝ) - 1) * C ≤ 1 / 4 := by
    intro m h1 h2
    rw [← hC] at hu
    refine le_trans (mul_le_mul_of_nonneg_right ?_ hC0) hu
    have h3 : (m : ℝ) ≤ ((inputs.length - 1 : ℕ) : ℝ) + 1 := by exact_mod_cast (by omega : m ≤ inputs.length - 1 + 1)
    linarith
  have hC1 : C ≤ 1 / 4 := by
    have := hle 1 le_rfl hlen
    norm_num at this
    linarith
  have H : ∃ states, (filter rng (buildFilterWith (K := K) A getInit getTrans getObs) inputs parallel key).result =
      .ok states ∧ states.length = inputs.length ∧ ∀ (t : ℕ) (s : FilterState n Inp), states[t]? = some s →
        Represented s.elem (blockMat M 0 (t + 1)) ((2 * ((t + 1 : ℕ) : ℝ) - 1) * C) := by
    refine filter_blocks rng (buildFilterWith (K := K) A getInit getTrans getObs) inputs hne parallel
      key (fun s m a => Represented a.elem (blockMat M s m) ((2 * (m : ℝ) - 1) * C)) ?_ ?_ ?_
    · intro v k hv
      have h := initPrepareWith_near (n := n) hA (getInit := getInit) (v := v) (hR.init v hv) hV.init_nonneg hV.init_sum
      obtain ⟨f, g, δ, ρ, he, hf, hδ, hρ, hδρ, hn, hr⟩ := h
      refine ⟨f, g, δ, ρ, he, hf, hδ, hρ, ?_, fun i j => ?_, hr⟩
      · have h15 : (15 : ℝ) ≤ errConst n D L := by unfold errConst; nlinarith [Nat.cast_nonneg (α := ℝ) n]
        have : 15 * u ≤ C := hC ▸ mul_le_mul_of_nonneg_right h15 hu0
        push_cast
        linarith
      · have := hn i j
        simp only [blockMat, Nat.sub_self, M.filterJoint_zero]
        exact this
    · intro t v k hv
      have ht : t + 1 < inputs.length := by
        by_contra h; rw [List.getElem?_eq_none (by omega)] at hv; cases hv
      have hlik : ∀ j, lik (getObs v j) = M.lik t j := fun j => (hR.obs t v hv j).2
      have hfl : ∀ j g, getObs v j = fin g → 0 < M.lik t j ∧ Real.log (M.lik t j) = g := by
        intro j g hg
        rw [← hlik j, hg]
        exact ⟨Real.exp_pos g, Real.log_exp g⟩
      have hone : ∀ i, ∑ j, M.trans t i j * lik (getObs v j) = M.future t 1 i := by
        intro i
        simp only [hlik]
        rw [M.future_succ]
        simp only [M.future_zero, mul_one]
        rfl
      have h := filterPrepareWith_near hA (getTrans := getTrans) (getObs := getObs) (v := v) (D := D) (L := L)
        (hR.trans t v hv) (hV.trans_nonneg t) (fun j => (hR.obs t v hv j).1)
        (by intro i; simp only [hlik]; exact hpos t (by omega) i)
        (by
          intro i j gi gj hi hj
          obtain ⟨p1, e1⟩ := hfl i gi hi
          obtain ⟨p2, e2⟩ := hfl j gj hj
          rw [← e1, ← e2]
          exact hb.lik_spread t (by omega) i j p1 p2)
        (by intro i; rw [hone]; exact hb.future t 1 le_rfl (by omega) (Or.inr rfl) i)
        (by
          intro j g hg
          obtain ⟨p1, e1⟩ := hfl j g hg
          rw [← e1]
          exact hb.lik t (by omega) j p1)
        (hC ▸ hC1) hB
      have hmat : blockMat M (t + 1) 1 = fun i j => M.trans t i j * lik (getObs v j) := by
        funext i j
        simp only [hlik, blockMat, HMM.stepsFrom, one_mul, Nat.add_zero]
        rfl
      show Represented (filterPrepareWith A getTrans getObs v).elem _ _
      rw [hmat]
      have : (2 * ((1 : ℕ) : ℝ) - 1) * C = errConst n D L * u := by rw [hC]; push_cast; ring
      rw [this]
      exact h
    · intro s m m' a b hm hm' hpar hN ha hb'
      have hgb : ∀ s m, 1 ≤ m → s + m ≤ inputs.length → (parallel = true ∨ s = 0 ∨ m = 1) →
          ∀ i, |Real.log (rowSum (blockMat M s m) i)| ≤ L := by
        intro s m hm hsm hp i
        cases s with
        | zero => rw [rowSum_blockMat_zero]; exact hb.evidence _ (by omega)
        | succ s =>
          rw [rowSum_blockMat_succ]
          refine hb.future s m hm (by omega) ?_ i
          rcases hp with h | h | h
          · exact Or.inl h
          · omega
          · exact Or.inr h
      obtain ⟨r, hr⟩ : ∃ r, s + m = r + 1 := ⟨s + m - 1, by omega⟩
      have h := filteringOperatorWith_near hA ha hb' (blockMat_good hR hV hpos s m hm (by omega))
        (blockMat_good hR hV hpos (s + m) m' hm' (by omega)) (hle m hm (by omega)) (hle m' hm' (by omega))
        (D := D) (L := L)
        (by
          intro i j
          rw [hr, rowSum_blockMat_succ, rowSum_blockMat_succ]
          exact hb.future_spread r m' hm' (by omega) (hpar.imp id fun h => h.2) i j)
        (hgb s m hm (by omega) (hpar.imp id fun h => Or.inl h.1))
        (hgb (s + m) m' hm' (by omega) (hpar.imp id fun h => Or.inr h.2))
        (by
          rw [blockMat_mul s m m' hm]
          exact hgb s (m + m') (by omega) (by omega) (hpar.imp id fun h => Or.inl h.1))
        (hC ▸ hC1) hB
      rw [blockMat_mul s m m' hm] at h
      show Represented (filteringOperatorWith A a.elem b.elem) _ _
      have he : (2 * (m : ℝ) - 1) * C + (2 * (m' : ℝ) - 1) * C + errConst n D L * u = (2 * ((m + m' : ℕ) : ℝ) - 1) * C := by
        rw [← hC]; push_cast; ring
      rw [← he]
      exact h
  obtain ⟨states, h1, h2, h3⟩ := H
  refine ⟨states, h1, h2, fun t s hs => ?_⟩
  have ht : t < inputs.length := by
    rw [← h2]
    by_contra hc
    rw [List.getElem?_eq_none (by omega)] at hs
    cases hs
  obtain ⟨f, g, δ, ρ, he, hf, hδ, hρ, hδρ, hn, hr⟩ := h3 t s hs
  have hgood : Good (blockMat M 0 (t + 1)) := blockMat_good hR hV hpos 0 (t + 1) (by omega) (by omega)
  have hrow := log_row_near hgood hn hr 0
  rw [rowSum_blockMat_zero, Nat.add_sub_cancel] at hrow
  have hev : 0 < M.evidence t := by
    have := hgood.pos 0
    rwa [rowSum_blockMat_zero, Nat.add_sub_cancel] at this
  have hδρ' : δ + ρ ≤ (2 * t + 1) * C := by
    refine hδρ.trans (le_of_eq ?_)
    push_cast
    ring
  refine ⟨f 0, g 0, fun k => ?_, ?_, fun k => ?_, ?_⟩
  · rw [FilterState.dist, he]
  · rw [FilterState.logNormalizingConstant, he]
  · have h4 := (hn 0 k).mul (hrow.1.inv hev) (hgood.nonneg 0 k) (inv_pos.mpr hev).le
    have h5 : Real.exp (g 0) * f 0 k * (Real.exp (g 0))⁻¹ = f 0 k := by
      field_simp
    rw [h5, ← div_eq_mul_inv] at h4
    refine h4.mono (div_nonneg (hgood.nonneg 0 k) hev.le) ?_
    rw [← hC]
    linarith
  · rw [← hC]
    exact hrow.2.trans hδρ'

end accuracy

/-- With exact arithmetic, the rounded filter is the filter of `Model/Discrete.lean`. -/
theorem buildFilterWith_exact (getInit : Inp → Fin (n + 1) → Fl) (getTrans : Inp → Fin (n + 1) → Fin (n + 1) → Fl)
    (getObs : Inp → Fin (n + 1) → Fl) :
    buildFilterWith (K := K) Arith.exact getInit getTrans getObs = buildFilter getInit getTrans getObs := rfl

/-- **C128** (floating point). Arithmetic with `p` bits, rounding to nearest, satisfies the assumptions with
`u = 2 ^ (1 - p)`. -/
theorem float_accurate {p : ℕ} (hp : 0 < p) {fl : ℝ → ℝ} (h : RoundsToNearest p fl) (B : ℝ) :
    (Arith.float fl B).Accurate (2 * 2 ^ (-(p : ℤ))) B := by
  obtain ⟨ε, hε⟩ : ∃ ε : ℝ, ε = 2 ^ (-(p : ℤ)) := ⟨_, rfl⟩
  have hε0 : 0 ≤ ε := by rw [hε]; positivity
  have hε1 : ε ≤ 1 / 2 := by
    rw [hε, zpow_neg, zpow_natCast, one_div]
    refine inv_anti₀ two_pos ?_
    calc (2 : ℝ) = 2 ^ 1 := (pow_one 2).symm
      _ ≤ 2 ^ p := pow_le_pow_right₀ one_le_two hp
  have herr : ∀ x, |fl x - x| ≤ ε * |x| := fun x => hε ▸ h.error hp x
  have herr2 : ∀ x, |fl x - x| ≤ 2 * ε * |x| := fun x =>
    (herr x).trans (mul_le_mul_of_nonneg_right (by linarith) (abs_nonneg x))
  have hnear : ∀ x, 0 ≤ x → Near (2 * ε) x (fl x) := by
    intro x hx
    have h1 := herr x
    rw [abs_of_nonneg hx] at h1
    exact Near.of_abs hε0 hε1 hx h1
  have h0 : fl 0 = 0 := h.of_float (isFloat_zero p)
  rw [← hε]
  refine ⟨by linarith, fun a b => ⟨_, rfl, herr2 _⟩, fun a b => ⟨fl (a - b), by simp [Arith.float, roundFl], herr2 _⟩,
    fun b => rfl, fun a b ha hb => ⟨_, rfl, hnear _ (mul_nonneg ha hb)⟩, fun a b ha hb => ⟨fl (a / b), ?_, ?_⟩, ?_, ?_, ?_, ?_⟩
  · simp only [Arith.float, fin_div a b hb.ne', roundFl]
  · exact hnear _ (div_nonneg ha hb.le)
  · intro x hx _
    refine ⟨fl (Real.exp x), ?_, hnear _ (Real.exp_pos x).le⟩
    simp only [Arith.float, expUnderflow, if_neg (not_lt.mpr hx), roundFl]
  · simp only [Arith.float, expUnderflow, Fl.exp, roundFl, h0]
  · intro x hx
    refine ⟨fl (Real.log x), ?_, herr2 _⟩
    simp only [Arith.float, log_fin x hx, roundFl]
  · intro N v hv
    simp only [Arith.float]
    induction N with
    | zero => exact ⟨0, rfl, by simp [Near]⟩
    | succ N ih =>
      obtain ⟨c, hc, hcn⟩ := ih (fun i => v i.castSucc) fun i => hv _
      refine ⟨fl (c + v (Fin.last N)), ?_, ?_⟩
      · rw [Fin.foldl_succ_last, hc]
        rfl
      · have hs : 0 ≤ ∑ i : Fin N, v i.castSucc := Finset.sum_nonneg fun i _ => hv _
        have hc0 := hcn.nonneg hs
        have hN0 : 0 ≤ N * (2 * ε) := by positivity
        have h2 : Near (N * (2 * ε)) (∑ i, v i) (c + v (Fin.last N)) := by
          rw [Fin.sum_univ_castSucc]
          have h3 := (Near.refl (v (Fin.last N))).mono (hv _) hN0
          exact ⟨by linarith [hcn.1, h3.1], by linarith [hcn.2, h3.2]⟩
        refine (h2.trans (hnear _ (add_nonneg hc0 (hv _)))).mono (Finset.sum_nonneg fun i _ => hv i) (le_of_eq ?_)
        push_cast
        ring

/-! Non-vacuity for C128: a model with two states, one of which explains the observations less well, filtered in double
precision. -/

/-- The states are drawn independently; an observation has density 1 in state 0 and 1/2 in state 1. -/
noncomputable def twoStates : HMM (Fin 2) where
  init _ := 1 / 2
  trans _ _ _ := 1 / 2
  lik _ j := if j = 0 then 1 else 1 / 2

theorem twoStates_future (s m : ℕ) (i : Fin 2) : twoStates.future s m i = (3 / 4) ^ m := by
  induction m generalizing s i with
  | zero => simp [HMM.future_zero]
  | succ m ih =>
    rw [HMM.future_succ, Fin.sum_univ_two, ih, ih]
    simp only [HMM.stepMat, twoStates]
    rw [pow_succ]
    norm_num
    ring

theorem twoStates_evidence (t : ℕ) : twoStates.evidence t = (3 / 4) ^ t := by
  have h1 : ∀ T k, twoStates.filterJoint T k = if T = 0 then 1 / 2 else (3 / 4) ^ (T - 1) * (if k = 0 then 1 / 2 else 1 / 4) := by
    intro T
    induction T with
    | zero => intro k; rw [HMM.filterJoint_zero]; rfl
    | succ T ih =>
      intro k
      rw [HMM.filterJoint_succ, Fin.sum_univ_two, ih, ih]
      simp only [HMM.stepMat, twoStates, Nat.succ_ne_zero, if_false, Nat.add_sub_cancel]
      rcases Nat.eq_zero_or_pos T with rfl | hT
      · fin_cases k <;> norm_num
      · simp only [hT.ne', if_false]
        have h2 : (3 / 4 : ℝ) ^ T = (3 / 4) ^ (T - 1) * (3 / 4) := by
          rw [← pow_succ, Nat.sub_add_cancel hT]
        rw [h2]
        fin_cases k
        · simp; ring
        · simp; ring
  rw [HMM.evidence_eq_sum, Fin.sum_univ_two, h1, h1]
  rcases Nat.eq_zero_or_pos t with rfl | hT
  · norm_num
  · have h2 : (3 / 4 : ℝ) ^ t = (3 / 4) ^ (t - 1) * (3 / 4) := by rw [← pow_succ, Nat.sub_add_cancel hT]
    rw [if_neg hT.ne', if_neg hT.ne', h2]
    simp
    ring

theorem abs_log_pow_le (m : ℕ) : |Real.log ((3 / 4 : ℝ) ^ m)| ≤ m := by
  have h1 : Real.log (3 / 4) ≤ 0 := Real.log_nonpos (by norm_num) (by norm_num)
  have h2 : -1 ≤ Real.log (3 / 4) := by
    have := Real.one_sub_inv_le_log_of_pos (x := (3 / 4 : ℝ)) (by norm_num)
    norm_num at this
    linarith
  rw [Real.log_pow, abs_mul, abs_of_nonneg (Nat.cast_nonneg m)]
  have h3 : |Real.log (3 / 4 : ℝ)| ≤ 1 := by rw [abs_le]; constructor <;> linarith
  calc (m : ℝ) * |Real.log (3 / 4)| ≤ m * 1 := mul_le_mul_of_nonneg_left h3 (Nat.cast_nonneg m)
    _ = m := mul_one _

theorem twoStates_bounds (T : ℕ) (parallel : Bool) : Bounds twoStates T parallel 1 (T + 1) := by
  have hl : |Real.log (1 / 2 : ℝ)| ≤ 1 := by
    have h1 : Real.log (1 / 2) ≤ 0 := Real.log_nonpos (by norm_num) (by norm_num)
    have h2 := Real.one_sub_inv_le_log_of_pos (x := (1 / 2 : ℝ)) (by norm_num)
    norm_num at h2
    rw [abs_le]
    constructor <;> norm_num at * <;> linarith
  have hT : (0 : ℝ) ≤ T := Nat.cast_nonneg T
  refine ⟨fun t ht => ?_, fun s m _ hm _ i => ?_, fun s m _ _ _ i j => ?_, fun t _ j _ => ?_, fun t _ i j _ _ => ?_⟩
  · rw [twoStates_evidence]
    refine (abs_log_pow_le t).trans ?_
    have : (t : ℝ) ≤ T := by exact_mod_cast ht
    linarith
  · rw [twoStates_future]
    refine (abs_log_pow_le m).trans ?_
    have : (m : ℝ) ≤ T := by exact_mod_cast (by omega : m ≤ T)
    linarith
  · rw [twoStates_future, twoStates_future, sub_self]
    exact zero_le_one
  · simp only [twoStates]
    split_ifs
    · rw [Real.log_one, abs_zero]; linarith
    · linarith
  · have h1 := abs_le.mp hl
    simp only [twoStates]
    split_ifs <;> (try simp only [Real.log_one]) <;> linarith

/-- Ten observations in double precision: the assumptions hold, sequentially and in parallel. -/
example (parallel : Bool) (fl : ℝ → ℝ) (h : RoundsToNearest 53 fl) :
    (Arith.float fl 745).Accurate (2 * 2 ^ (-((53 : ℕ) : ℤ))) 745 ∧
    Represents twoStates (fun _ : Unit => fun _ => fin (1 / 2)) (fun _ _ _ => fin (1 / 2))
      (fun _ j => fin (if j = 0 then 0 else Real.log (1 / 2))) (List.replicate 11 ()) ∧ Valid twoStates ∧
    RowsPositive twoStates 10 ∧ Bounds twoStates 10 parallel 1 11 ∧ (0 : ℝ) ≤ 1 ∧ (1 : ℝ) + 1 ≤ 745 ∧
    (2 * ((10 : ℕ) : ℝ) + 1) * (errConst 1 1 11 * (2 * 2 ^ (-((53 : ℕ) : ℤ)))) ≤ 1 / 4 := by
  refine ⟨float_accurate (by norm_num) h 745, ⟨fun _ _ _ => rfl, fun _ _ _ _ _ => rfl, fun t u _ j => ⟨trivial, ?_⟩⟩,
    ⟨fun _ => by norm_num [twoStates], by norm_num [twoStates], fun _ _ _ => by norm_num [twoStates],
      fun _ _ => by norm_num [twoStates]⟩, fun t _ i => ?_, ?_, zero_le_one, by norm_num, ?_⟩
  · simp only [lik, twoStates]
    split_ifs
    · exact Real.exp_zero
    · exact Real.exp_log (by norm_num)
  · refine Finset.sum_pos (fun j _ => ?_) Finset.univ_nonempty
    simp only [twoStates]
    split_ifs <;> norm_num
  · have := twoStates_bounds 10 parallel
    norm_num at this
    exact this
  · unfold errConst
    norm_num

/-! ## C129 -/

/-- A chain that never moves. State 0 is certain at the start, but the observation is much more likely in state 1. -/
noncomputable def stuckChain (ℓ : ℝ) : HMM (Fin 2) where
  init j := if j = 0 then 1 else 0
  trans _ i j := if i = j then 1 else 0
  lik _ j := if j = 0 then Real.exp (-ℓ) else 1

/-- The callbacks of `stuckChain`. -/
theorem stuckChain_represents (ℓ : ℝ) : Represents (stuckChain ℓ) (fun _ : Unit => fun j => fin (if j = 0 then 1 else 0))
    (fun _ i j => fin (if i = j then 1 else 0)) (fun _ j => fin (if j = 0 then -ℓ else 0)) [(), ()] ∧
    Valid (stuckChain ℓ) ∧ RowsPositive (stuckChain ℓ) 1 := by
  refine ⟨⟨fun _ _ _ => rfl, fun _ _ _ _ _ => rfl, fun t u _ j => ⟨trivial, ?_⟩⟩,
    ⟨fun j => ?_, ?_, fun t i j => ?_, fun t i => ?_⟩, fun t _ i => ?_⟩
  · simp only [lik, stuckChain]
    split_ifs
    · rfl
    · exact Real.exp_zero
  · simp only [stuckChain]; split_ifs <;> norm_num
  · simp [stuckChain]
  · simp only [stuckChain]; split_ifs <;> norm_num
  · simp [stuckChain]
  · fin_cases i
    · simp [stuckChain, Real.exp_pos]
    · simp [stuckChain]

/-- **C129** (the claim fails). If the log-likelihoods of two states differ by more than the range of the exponential
function, the filter returns `nan` probabilities and the log normalising constant `-inf`, although the filtering
distribution is well-defined (state 0 with certainty) and the evidence is the positive number `exp (-ℓ)`, whose logarithm is
an ordinary number: the likelihoods are divided by their maximum over all states, not over the states that can be
reached. -/
theorem discrete_filter_underflow {p : ℕ} {fl : ℝ → ℝ} (h : RoundsToNearest p fl) (hp : 0 < p) {B ℓ : ℝ} (hB : 0 ≤ B)
    (hℓ : IsFloat p ℓ) (hBℓ : B < ℓ) (rng : Prng K) (key : Option K) (parallel : Bool) :
    (∃ s₀ s₁, (filter rng (buildFilterWith (K := K) (Arith.float fl B)
        (fun _ : Unit => fun j : Fin 2 => fin (if j = 0 then 1 else 0))
        (fun _ i j => fin (if i = j then 1 else 0)) (fun _ j => fin (if j = 0 then -ℓ else 0))) [(), ()] parallel key).result =
        .ok [s₀, s₁] ∧
      s₁.dist 0 = nan ∧ s₁.dist 1 = nan ∧ s₁.logNormalizingConstant = ninf) ∧
    (stuckChain ℓ).evidence 1 = Real.exp (-ℓ) ∧ (stuckChain ℓ).filterLaw 1 0 = 1 := by
  have h0 : fl 0 = 0 := h.of_float (isFloat_zero p)
  have h1 : fl 1 = 1 := h.of_float ⟨1, 0, by simpa using one_lt_pow₀ one_lt_two hp.ne', by simp⟩
  have hneg : fl (-ℓ) = -ℓ := by
    obtain ⟨m, e, hm, he⟩ := hℓ
    exact h.of_float ⟨-m, e, by rwa [abs_neg], by rw [he]; push_cast; ring⟩
  have hjoint : ∀ k, (stuckChain ℓ).filterJoint 1 k = if k = 0 then Real.exp (-ℓ) else 0 := by
    intro k
    rw [HMM.filterJoint_succ, Fin.sum_univ_two, HMM.filterJoint_zero, HMM.filterJoint_zero]
    fin_cases k <;> simp [stuckChain, HMM.stepMat]
  have hev : (stuckChain ℓ).evidence 1 = Real.exp (-ℓ) := by
    rw [HMM.evidence_eq_sum, Fin.sum_univ_two, hjoint, hjoint]
    simp
  refine ⟨?_, hev, ?_⟩
  · have hE0 : (Arith.float fl B).exp ((Arith.float fl B).sub (fin (-ℓ)) (fin 0)) = fin 0 := by
      simp only [Arith.float, fin_sub, sub_zero, roundFl, hneg, expUnderflow, if_pos (neg_lt_neg hBℓ), h0]
    have hE1 : (Arith.float fl B).exp ((Arith.float fl B).sub (fin 0) (fin 0)) = fin 1 := by
      have : ¬ (0 : ℝ) < -B := by linarith
      simp only [Arith.float, fin_sub, sub_zero, roundFl, h0, expUnderflow, if_neg this, Real.exp_zero, h1]
    have hEn : (Arith.float fl B).exp ((Arith.float fl B).sub ninf (fin 0)) = fin 0 := by
      simp only [Arith.float, Fl.sub_def, Fl.neg_fin, Fl.add_def, Fl.add, roundFl, expUnderflow, Fl.exp, h0]
    have hmul : ∀ a b, fl (a * b) = a * b → (Arith.float fl B).mul (fin a) (fin b) = fin (a * b) := by
      intro a b hab
      simp only [Arith.float, fin_mul, roundFl, hab]
    have hsum : ∀ a b : ℝ, fl a = a → fl (a + b) = a + b →
        ∀ v : Fin 2 → Fl, v 0 = fin a → v 1 = fin b → (Arith.float fl B).sum v = fin (a + b) := by
      intro a b ha hab v hv0 hv1
      simp only [Arith.float, Fin.foldl_succ, Fin.foldl_zero]
      simp only [hv0, fin_add, zero_add, roundFl, ha]
      have : v (Fin.succ 0) = fin b := hv1
      rw [this, fin_add]
      exact congrArg fin hab
    have hv1 : vmax (fun j : Fin 2 => fin (if j = 0 then -ℓ else 0)) = fin 0 := by
      obtain ⟨m, hm, ⟨i, hi⟩, hle⟩ := vmax_spec (v := fun j : Fin 2 => fin (if j = 0 then -ℓ else 0))
        (fun _ => trivial) ⟨0, by simp⟩
      rw [hm]
      have h2 := hle 1 0 (by simp)
      have h3 : m ≤ 0 := by
        rw [fin.injEq] at hi
        rw [← hi]
        split_ifs <;> linarith
      rw [le_antisymm h3 h2]
    have hlog0 : ∀ c : Fl, c = fin 0 → (Arith.float fl B).add ((Arith.float fl B).log c) (fin 0) = ninf := by
      rintro c rfl
      simp [Arith.float, Fl.log, roundFl, Fl.add_def, Fl.add]
    have hlog1 : ∀ c : Fl, c = fin 1 → (Arith.float fl B).add ((Arith.float fl B).log c) (fin 0) = fin 0 := by
      rintro c rfl
      simp [Arith.float, Fl.log, roundFl, h0]
    have hdiv : ∀ c d : Fl, c = fin 0 → d = fin 0 → (Arith.float fl B).div c d = nan := by
      rintro c d rfl rfl
      simp [Arith.float, Fl.div_def, Fl.div, Fl.infOfSign, roundFl]
    -- the prepared element
    obtain ⟨pr, hpr⟩ : ∃ pr, pr = (filterPrepareWith (Arith.float fl B) (fun _ : Unit => fun i j : Fin 2 =>
      fin (if i = j then 1 else 0)) (fun _ j => fin (if j = 0 then -ℓ else 0)) ()) := ⟨_, rfl⟩
    have hc : ∀ i j : Fin 2, (Arith.float fl B).mul (fin (if i = j then 1 else 0))
        ((Arith.float fl B).exp ((Arith.float fl B).sub (fin (if j = 0 then -ℓ else 0)) (fin 0))) =
        fin (if i = 1 ∧ j = 1 then 1 else 0) := by
      intro i j
      fin_cases j
      · simp only [Fin.zero_eta, if_true, hE0]
        rw [hmul _ _ (by simpa using h0)]
        simp
      · simp only [Fin.mk_one, one_ne_zero, if_false, hE1]
        rw [hmul _ _ (by split_ifs <;> simp [h0, h1])]
        fin_cases i <;> simp
    have hg0 : pr.elem.logG 0 = ninf := by
      rw [hpr]
      simp only [filterPrepareWith, conditionOnObsWith, hv1, hc]
      exact hlog0 _ ((hsum 0 0 h0 (by simpa using h0) _ (by simp) (by simp)).trans (by simp))
    have hg1 : pr.elem.logG 1 = fin 0 := by
      rw [hpr]
      simp only [filterPrepareWith, conditionOnObsWith, hv1, hc]
      exact hlog1 _ ((hsum 0 1 h0 (by simpa using h1) _ (by simp) (by simp)).trans (by simp))
    have hv2 : vmax pr.elem.logG = fin 0 := by
      obtain ⟨m, hm, ⟨i, hi⟩, -⟩ := vmax_spec (v := pr.elem.logG)
        (by intro i; fin_cases i; exacts [by rw [Fin.zero_eta, hg0]; trivial, by rw [Fin.mk_one, hg1]; trivial])
        ⟨1, by rw [hg1]; simp⟩
      rw [hm]
      fin_cases i
      · rw [Fin.zero_eta, hg0] at hi; cases hi
      · rw [Fin.mk_one, hg1] at hi; exact hi.symm
    -- the combination
    obtain ⟨ini, hini⟩ : ∃ ini, ini = initPrepareWith (Arith.float fl B) (fun _ : Unit => fun j : Fin 2 => fin (if j = 0 then 1 else 0)) () :=
      ⟨_, rfl⟩
    have hf : ∀ i j, ini.elem.f i j = fin (if j = 0 then 1 else 0) := by
      intro i j
      rw [hini]
      simp only [initPrepareWith]
      rw [hmul _ _ (by split_ifs <;> simp [h0, h1]), mul_one]
    have hd : ∀ i j, (Arith.float fl B).mul (ini.elem.f i j)
        ((Arith.float fl B).exp ((Arith.float fl B).sub (pr.elem.logG j) (fin 0))) = fin 0 := by
      intro i j
      rw [hf]
      fin_cases j
      · rw [Fin.zero_eta, hg0, hEn, hmul _ _ (by simpa using h0), mul_zero]
      · rw [Fin.mk_one, hg1, hE1, hmul _ _ (by simpa using h0)]
        simp
    have hn : (Arith.float fl B).sum (fun _ : Fin 2 => fin 0) = fin 0 :=
      (hsum 0 0 h0 (by simpa using h0) _ rfl rfl).trans (by simp)
    have hcomb : ∀ k, (filterCombineWith (Arith.float fl B) ini pr).dist k = nan := by
      intro k
      simp only [FilterState.dist, filterCombineWith, filteringOperatorWith, conditionOnObsWith, hv2, hd, hn]
      simp only [hdiv _ _ rfl rfl]
      simp only [Arith.float, Fin.foldl_succ, Fin.foldl_zero, Fl.mul_def, Fl.mul, roundFl, Fl.add_def, Fl.add]
    have hcombl : (filterCombineWith (Arith.float fl B) ini pr).logNormalizingConstant = ninf := by
      simp only [FilterState.logNormalizingConstant, filterCombineWith, filteringOperatorWith, conditionOnObsWith, hv2, hd, hn]
      rw [hlog0 _ rfl, hini]
      simp only [initPrepareWith, Arith.float, Fl.add_def, Fl.add, roundFl]
    refine ⟨ini, filterCombineWith (Arith.float fl B) ini pr, ?_, hcomb 0, hcomb 1, hcombl⟩
    cases parallel with
    | false =>
      rw [filter_sequential_eq]
      have he : filterElems rng (buildFilterWith (K := K) (Arith.float fl B)
          (fun _ : Unit => fun j : Fin 2 => fin (if j = 0 then 1 else 0))
          (fun _ i j => fin (if i = j then 1 else 0)) (fun _ j => fin (if j = 0 then -ℓ else 0))) [()] key = [pr] := by
        refine List.ext_getElem? fun t => ?_
        rw [filterElems_get, hpr]
        cases t <;> rfl
      rw [he, hini]
      rfl
    | true =>
      rw [filter_parallel_eq]
      have he : filterElems rng (buildFilterWith (K := K) (Arith.float fl B)
          (fun _ : Unit => fun j : Fin 2 => fin (if j = 0 then 1 else 0))
          (fun _ i j => fin (if i = j then 1 else 0)) (fun _ j => fin (if j = 0 then -ℓ else 0))) [()] key = [pr] := by
        refine List.ext_getElem? fun t => ?_
        rw [filterElems_get, hpr]
        cases t <;> rfl
      rw [he, associativeScan_cons_cons, hini]
      simp [pairUp, associativeScan_singleton, interleave, everyOther, buildFilterWith]
  · rw [HMM.filterLaw, hjoint, hev, if_pos rfl, div_self (Real.exp_ne_zero _)]

/-- **C129** (partial). In floating point with `p` bits the filter returns finite numbers, if the log-likelihoods of the
states (in parallel: of blocks of observations) differ by at most `B - 1` and the errors are small. Missing: larger
differences, for which the claim is false. -/
theorem discrete_filter_finite_partial {M : HMM (Fin (n + 1))} {getInit : Inp → Fin (n + 1) → Fl}
    {getTrans : Inp → Fin (n + 1) → Fin (n + 1) → Fl} {getObs : Inp → Fin (n + 1) → Fl} {inputs : List Inp}
    {p : ℕ} {fl : ℝ → ℝ} (h : RoundsToNearest p fl) (hp : 0 < p) {B L : ℝ} (hB : 1 ≤ B)
    (hR : Represents M getInit getTrans getObs inputs) (hV : Valid M) (hne : inputs ≠ [])
    (hpos : RowsPositive M (inputs.length - 1)) (parallel : Bool)
    (hb : Bounds M (inputs.length - 1) parallel (B - 1) L)
    (hu : (2 * (inputs.length - 1 : ℕ) + 1) * (errConst n (B - 1) L * (2 * 2 ^ (-(p : ℤ)))) ≤ 1 / 4)
    (rng : Prng K) (key : Option K) :
    ∃ states, (filter rng (buildFilterWith (K := K) (Arith.float fl B) getInit getTrans getObs) inputs parallel key).result =
        .ok states ∧ states.length = inputs.length ∧
      ∀ s ∈ states, (∀ k, (s.dist k).IsFin) ∧ s.logNormalizingConstant.IsFin := by
  obtain ⟨states, h1, h2, h3⟩ := discrete_filter_rounding (float_accurate hp h B) hR hV hne hpos parallel hb
    (by linarith) (by linarith) hu rng key
  refine ⟨states, h1, h2, fun s hs => ?_⟩
  obtain ⟨t, ht⟩ := List.getElem?_of_mem hs
  obtain ⟨d, l, hd, hl, -, -⟩ := h3 t s ht
  refine ⟨fun k => ?_, ?_⟩
  · rw [hd k]; trivial
  · rw [hl]; trivial

end Cuthbert.Discrete
