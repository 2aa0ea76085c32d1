import Verif.Props.RoundedKalman

/-!
# C133: the Rauch–Tung–Striebel smoother with an inexact triangularisation
-/

namespace Cuthbert.Kalman
open Matrix Cuthbert Spec

variable {n nx ny : ℕ}

/-- With an exact triangularisation the model is the one of `smoothing.update`. -/
theorem smootherUpdateWith_exact (qr : QR) (fm : Fin nx → ℝ) (fP : Matrix (Fin nx) (Fin nx) ℝ) (sm : Fin nx → ℝ)
    (sP F : Matrix (Fin nx) (Fin nx) ℝ) (c : Fin nx → ℝ) (cholQ : Matrix (Fin nx) (Fin nx) ℝ) :
    (smootherUpdateWith (exactTriang qr) fm fP sm sP F c cholQ).map (fun s => (s.mean, s.chol)) =
      (smootherUpdate qr fm fP sm sP F c cholQ).map (·.1) := by
  simp only [smootherUpdateWith, smootherUpdate, Option.map_map]
  rfl

theorem sqrt_varAlong_add_le (L : Matrix (Fin n) (Fin n) ℝ) (x y : Fin n → ℝ) :
    Real.sqrt (varAlong L (x + y)) ≤ Real.sqrt (varAlong L x) + Real.sqrt (varAlong L y) := by
  have := size_add_le (x ᵥ* L) (y ᵥ* L)
  rw [← Matrix.add_vecMul] at this
  exact this

/-- Pythagoras with one perturbed side. -/
theorem sq_add_perturbed {p q h : ℝ} (hh : 0 ≤ h) : p ^ 2 + (q + h * p) ^ 2 ≤ Real.exp (2 * h) * (p ^ 2 + q ^ 2) := by
  have h1 : p ^ 2 + (q + h * p) ^ 2 ≤ (1 + h) ^ 2 * (p ^ 2 + q ^ 2) := by
    have : 0 ≤ (p - q) ^ 2 := sq_nonneg _
    nlinarith [mul_nonneg hh (sq_nonneg (p - q)), mul_nonneg hh (sq_nonneg p), mul_nonneg (mul_nonneg hh hh) (sq_nonneg q)]
  have h2 : (1 + h) ^ 2 ≤ Real.exp (2 * h) := by
    have e : Real.exp (2 * h) = Real.exp h ^ 2 := by rw [← Real.exp_nat_mul]; norm_num
    rw [e]
    have := Real.add_one_le_exp h
    exact pow_le_pow_left₀ (by linarith) (by linarith) 2
  exact h1.trans (mul_le_mul_of_nonneg_right h2 (by positivity))

/-- One smoothing step, with errors of the filter and of the next smoothing state. -/
theorem smoother_near (qr : QR) {tri : Triang} {ε η ζ cf cs : ℝ} (hε : 0 ≤ ε) (hη : 0 ≤ η) (hζ : η + ε ≤ ζ) (hcf : 0 ≤ cf)
    (ht : tri.Accurate ε) {m m' : Fin nx → ℝ} {L L' : Matrix (Fin nx) (Fin nx) ℝ} (hL : SpreadNear η L L')
    (hm : ∀ w, |w ⬝ᵥ (m' - m)| ≤ cf * Real.sqrt (varAlong L w)) {ms ms' : Fin nx → ℝ} {Ls Ls' : Matrix (Fin nx) (Fin nx) ℝ}
    (hLs : SpreadNear ζ Ls Ls') (hms : ∀ w, |w ⬝ᵥ (ms' - ms)| ≤ cs * Real.sqrt (varAlong Ls w))
    (F : Matrix (Fin nx) (Fin nx) ℝ) (b : Fin nx → ℝ) (cholQ : Matrix (Fin nx) (Fin nx) ℝ)
    (hle : ∀ x, varAlong Ls x ≤ varAlong (hcat (F * L) cholQ) x) {s : Smoothed nx}
    (hs : smootherUpdateWith (exactTriang qr) m L ms Ls F b cholQ = some s) :
    (∀ w, varAlong s.chol w ≤ varAlong L w) ∧
    ∃ s', smootherUpdateWith tri m' L' ms' Ls' F b cholQ = some s' ∧
      SpreadNear (ζ + (2 * (Real.sinh (η + ε) * Real.exp (η + ε)) + ε)) s.chol s'.chol ∧
      ∀ w, |w ⬝ᵥ (s'.mean - s.mean)| ≤
        Real.sqrt (cs ^ 2 + (cf + gainErr (η + ε) * size s'.white) ^ 2) * Real.sqrt (varAlong s.chol w) := by
  have h0 : (exactTriang qr).Accurate 0 := exactTriang_accurate qr le_rfl
  simp only [smootherUpdateWith, Option.map_eq_some_iff] at hs
  obtain ⟨T, hT⟩ : ∃ T, T = (exactTriang qr).sq (block (F * L) cholQ L 0) le_rfl := ⟨_, rfl⟩
  obtain ⟨T', hT'⟩ : ∃ T', T' = tri.sq (block (F * L') cholQ L' 0) le_rfl := ⟨_, rfl⟩
  have hlT : IsLower T := by rw [hT]; exact h0.lower _ _
  have hlT' : IsLower T' := by rw [hT']; exact ht.lower _ _
  rw [← hT] at hs
  have hM : SpreadNear 0 T (block (F * L) cholQ L 0) := by rw [hT]; exact (h0.near _ _).symm
  have hTT : SpreadNear (η + ε) T T' := by
    have h2 : SpreadNear ε (block (F * L') cholQ L' 0) T' := by rw [hT']; exact ht.near _ _
    have := (hM.trans (SpreadNear.joint hL (spreadNear_of_gram rfl hη) F)).trans h2
    rwa [zero_add] at this
  obtain ⟨I, hI⟩ : ∃ I, I = topLeft T := ⟨_, rfl⟩
  obtain ⟨I', hI'⟩ : ∃ I', I' = topLeft T' := ⟨_, rfl⟩
  obtain ⟨G, hG⟩ : ∃ G, G = bottomLeft T := ⟨_, rfl⟩
  obtain ⟨G', hG'⟩ : ∃ G', G' = bottomLeft T' := ⟨_, rfl⟩
  obtain ⟨C, hC⟩ : ∃ C, C = bottomRight T := ⟨_, rfl⟩
  obtain ⟨C', hC'⟩ : ∃ C', C' = bottomRight T' := ⟨_, rfl⟩
  have hlI : IsLower I := by rw [hI]; exact isLower_topLeft hlT
  have hlI' : IsLower I' := by rw [hI']; exact isLower_topLeft hlT'
  have bT : T = block I 0 G C := by rw [hI, hG, hC]; exact eq_block_of_lower hlT
  have bT' : T' = block I' 0 G' C' := by rw [hI', hG', hC']; exact eq_block_of_lower hlT'
  rw [← hI, ← hG, ← hC] at hs
  rw [bT, bT'] at hTT
  rw [bT] at hM
  obtain ⟨X, hX, rfl⟩ := hs
  have hdiag : ∀ i, I i i ≠ 0 := by
    by_contra hcon
    rw [smootherUpdate.solveLowerTrans, if_neg hcon] at hX
    cases hX
  have hId : I.det ≠ 0 := hlI.det_ne_zero_iff.mpr hdiag
  have hII := spread_top hTT
  have hId' : I'.det ≠ 0 := spread_det hII hId
  have hdiag' := hlI'.det_ne_zero_iff.mp hId'
  have iu : IsUnit I.det := isUnit_iff_ne_zero.mpr hId
  have iu' : IsUnit I'.det := isUnit_iff_ne_zero.mpr hId'
  rw [smootherUpdate.solveLowerTrans, if_pos hdiag, lowerPart_eq hlI, Option.some.injEq] at hX
  have hK : Xᵀ = G * I⁻¹ := by
    rw [← hX, Matrix.transpose_mul, Matrix.transpose_transpose, Matrix.transpose_nonsing_inv, Matrix.transpose_transpose]
  obtain ⟨K, hKd⟩ : ∃ K, K = G * I⁻¹ := ⟨_, rfl⟩
  obtain ⟨K', hKd'⟩ : ∃ K', K' = G' * I'⁻¹ := ⟨_, rfl⟩
  have hjoint : ∀ (a w : Fin nx → ℝ), varAlong (block I 0 G C) (Fin.append a w) = varAlong L (a ᵥ* F + w) + varAlong cholQ a := by
    intro a w
    obtain ⟨h1, h2⟩ := hM (Fin.append a w)
    rw [Real.exp_zero, one_mul, varAlong_joint] at h1 h2
    exact le_antisymm h2 h1
  have hpred : ∀ x, varAlong Ls x ≤ varAlong I x := by
    intro x
    refine (hle x).trans (le_of_eq ?_)
    have h1 := hjoint x 0
    rw [varAlong_top, add_zero] at h1
    rw [h1, varAlong_hcat, varAlong_mul]
  have hKI : K * I = G := by rw [hKd, Matrix.mul_assoc, Matrix.nonsing_inv_mul _ iu, Matrix.mul_one]
  have hKI' : K' * I' = G' := by rw [hKd', Matrix.mul_assoc, Matrix.nonsing_inv_mul _ iu', Matrix.mul_one]
  -- variances of the exact step
  obtain ⟨S, hS⟩ : ∃ S, S = (exactTriang qr).sq (hcat C (K * Ls)) (Nat.le_add_left _ _) := ⟨_, rfl⟩
  have hV : ∀ w, varAlong S w = varAlong C w + varAlong Ls (w ᵥ* K) := by
    intro w
    obtain ⟨h1, h2⟩ := h0.near (hcat C (K * Ls)) (Nat.le_add_left _ _) w
    rw [Real.exp_zero, one_mul, ← hS, varAlong_hcat, varAlong_mul] at h1 h2
    exact le_antisymm h1 h2
  obtain ⟨S', hS'⟩ : ∃ S', S' = tri.sq (hcat C' (K' * Ls')) (Nat.le_add_left _ _) := ⟨_, rfl⟩
  obtain ⟨u', hu'⟩ : ∃ u', u' = I'⁻¹ *ᵥ (ms' - (b + F *ᵥ m')) := ⟨_, rfl⟩
  have hv' : I' *ᵥ u' = ms' - (b + F *ᵥ m') := by
    rw [hu', Matrix.mulVec_mulVec, Matrix.mul_nonsing_inv _ iu', Matrix.one_mulVec]
  have hrun : smootherUpdateWith tri m' L' ms' Ls' F b cholQ = some ⟨m' + K' *ᵥ (ms' - (b + F *ᵥ m')), S', u'⟩ := by
    simp only [smootherUpdateWith]
    rw [← hT', ← hI', ← hG', ← hC', smootherUpdate.solveLowerTrans, if_pos hdiag', lowerPart_eq hlI', Option.map_some]
    have : ((I'ᵀ⁻¹ * G'ᵀ))ᵀ = K' := by
      rw [Matrix.transpose_mul, Matrix.transpose_transpose, Matrix.transpose_nonsing_inv, Matrix.transpose_transpose, hKd']
    rw [this, ← hS', ← hu']
  have hC2 := spread_bottom hTT hId
  have hg0 : 0 ≤ gainErr (η + ε) := gainErr_nonneg (by linarith)
  -- the error of the gain
  obtain ⟨h, hh⟩ : ∃ h, h = Real.sinh (η + ε) * Real.exp (η + ε) := ⟨_, rfl⟩
  have hh0 : 0 ≤ h := by
    rw [hh]; exact mul_nonneg (Real.sinh_nonneg_iff.mpr (by linarith)) (Real.exp_pos _).le
  have hgain : ∀ w, Real.sqrt (varAlong Ls (w ᵥ* K' - w ᵥ* K)) ≤ h * Real.sqrt (varAlong C w) := by
    intro w
    obtain ⟨x, hx⟩ : ∃ x, x = w ᵥ* K' - w ᵥ* K := ⟨_, rfl⟩
    obtain ⟨v, hv⟩ : ∃ v, v = x ᵥ* I' := ⟨_, rfl⟩
    have hge := gain_error hTT hId v w
    have e1 : w ⬝ᵥ (G' *ᵥ v - (G * I⁻¹) *ᵥ (I' *ᵥ v)) = v ⬝ᵥ v := by
      rw [← hKd, ← hKI', dotProduct_sub, ← Matrix.mulVec_mulVec, dotProduct_mulVec, dotProduct_mulVec, dotProduct_mulVec w K,
        dotProduct_mulVec (w ᵥ* K), ← sub_dotProduct, ← Matrix.sub_vecMul, ← hx, ← hv]
    rw [e1] at hge
    have hvv := dot_self_nonneg v
    have e2 : v ⬝ᵥ v ≤ Real.sinh (η + ε) ^ 2 * Real.exp (η + ε) * varAlong C w := by
      rcases hvv.eq_or_lt with hz | hz
      · rw [← hz]; exact mul_nonneg (by positivity) (varAlong_nonneg _ _)
      · have : (v ⬝ᵥ v) * (v ⬝ᵥ v) ≤ (Real.sinh (η + ε) ^ 2 * Real.exp (η + ε) * varAlong C w) * (v ⬝ᵥ v) := by
          refine le_trans (le_of_eq (by ring)) (hge.trans (le_of_eq (by ring)))
        exact le_of_mul_le_mul_right this hz
    have e3 : varAlong I' x = v ⬝ᵥ v := by rw [hv, varAlong]
    have e4 := (hII x).2
    have e5 : varAlong Ls x ≤ h ^ 2 * varAlong C w := by
      refine (hpred x).trans (e4.trans ?_)
      rw [e3]
      refine (mul_le_mul_of_nonneg_left e2 (Real.exp_pos _).le).trans (le_of_eq ?_)
      rw [hh]; ring
    rw [← hx]
    refine (Real.sqrt_le_sqrt e5).trans (le_of_eq ?_)
    rw [Real.sqrt_mul (sq_nonneg _), Real.sqrt_sq hh0]
  refine ⟨?_, _, hrun, ?_, ?_⟩
  · intro w
    simp only [hK, ← hKd, ← hS]
    rw [hV]
    have h1 := hpred (w ᵥ* K)
    have h2 := hjoint 0 w
    rw [Matrix.zero_vecMul, zero_add, varAlong_lower, Matrix.zero_vecMul, zero_add] at h2
    have h3 : varAlong cholQ 0 = 0 := by rw [varAlong, Matrix.zero_vecMul, dotProduct_zero]
    have h4 : varAlong I (w ᵥ* K) = (w ᵥ* G) ⬝ᵥ (w ᵥ* G) := by rw [varAlong, Matrix.vecMul_vecMul, hKI]
    linarith
  · simp only [hK, ← hKd, ← hS]
    rw [← hh]
    have hpre : SpreadNear (ζ + 2 * h) S (hcat C' (K' * Ls')) := by
      intro w
      rw [hV, varAlong_hcat, varAlong_mul]
      have hb := varAlong_nonneg C w
      have hb' := varAlong_nonneg C' w
      have eζ : Real.exp ζ = Real.exp (ζ / 2) ^ 2 := by rw [← Real.exp_nat_mul]; congr 1; push_cast; ring
      have hmono : Real.exp (η + ε) ≤ Real.exp ζ := Real.exp_le_exp.mpr hζ
      have sqs : ∀ {x : ℝ}, 0 ≤ x → Real.sqrt x ^ 2 = x := fun hx => Real.sq_sqrt hx
      have tri1 : Real.sqrt (varAlong Ls (w ᵥ* K')) ≤ Real.sqrt (varAlong Ls (w ᵥ* K)) + h * Real.sqrt (varAlong C w) := by
        have h1 := sqrt_varAlong_add_le Ls (w ᵥ* K) (w ᵥ* K' - w ᵥ* K)
        rw [add_sub_cancel] at h1
        linarith [hgain w]
      have tri2 : Real.sqrt (varAlong Ls (w ᵥ* K)) ≤ Real.sqrt (varAlong Ls (w ᵥ* K')) + h * Real.sqrt (varAlong C w) := by
        have h1 := sqrt_varAlong_add_le Ls (w ᵥ* K') (-(w ᵥ* K' - w ᵥ* K))
        have h2 : varAlong Ls (-(w ᵥ* K' - w ᵥ* K)) = varAlong Ls (w ᵥ* K' - w ᵥ* K) := by
          simp only [varAlong, Matrix.neg_vecMul, neg_dotProduct_neg]
        rw [h2, neg_sub, add_sub_cancel] at h1
        linarith [hgain w]
      obtain ⟨c1, c2⟩ := hC2 w
      rw [Real.exp_add]
      constructor
      · have f1 : varAlong Ls' (w ᵥ* K') ≤ Real.exp ζ * (Real.sqrt (varAlong Ls (w ᵥ* K)) + h * Real.sqrt (varAlong C w)) ^ 2 := by
          refine ((hLs (w ᵥ* K')).1).trans (mul_le_mul_of_nonneg_left ?_ (Real.exp_pos _).le)
          rw [← sqs (varAlong_nonneg Ls (w ᵥ* K'))]
          exact pow_le_pow_left₀ (Real.sqrt_nonneg _) tri1 2
        have f2 : varAlong C' w ≤ Real.exp ζ * varAlong C w := c1.trans (mul_le_mul_of_nonneg_right hmono hb)
        have f3 := sq_add_perturbed (p := Real.sqrt (varAlong C w)) (q := Real.sqrt (varAlong Ls (w ᵥ* K))) hh0
        rw [sqs hb, sqs (varAlong_nonneg _ _)] at f3
        have := mul_le_mul_of_nonneg_left f3 (Real.exp_pos ζ).le
        calc _ ≤ Real.exp ζ * (varAlong C w + (Real.sqrt (varAlong Ls (w ᵥ* K)) + h * Real.sqrt (varAlong C w)) ^ 2) := by linarith
          _ ≤ _ := this
          _ = _ := by ring
      · have f1 : Real.sqrt (varAlong Ls (w ᵥ* K')) ≤ Real.exp (ζ / 2) * Real.sqrt (varAlong Ls' (w ᵥ* K')) := by
          have := Real.sqrt_le_sqrt (hLs (w ᵥ* K')).2
          rwa [eζ, Real.sqrt_mul (sq_nonneg _), Real.sqrt_sq (Real.exp_pos _).le] at this
        have f2 : varAlong C w ≤ Real.exp ζ * varAlong C' w := c2.trans (mul_le_mul_of_nonneg_right hmono hb')
        have f2' : Real.sqrt (varAlong C w) ≤ Real.exp (ζ / 2) * Real.sqrt (varAlong C' w) := by
          have := Real.sqrt_le_sqrt f2
          rwa [eζ, Real.sqrt_mul (sq_nonneg _), Real.sqrt_sq (Real.exp_pos _).le] at this
        have f4 : Real.sqrt (varAlong Ls (w ᵥ* K)) ≤
            Real.exp (ζ / 2) * (Real.sqrt (varAlong Ls' (w ᵥ* K')) + h * Real.sqrt (varAlong C' w)) := by
          have := mul_le_mul_of_nonneg_left f2' hh0
          linarith
        have f5 := pow_le_pow_left₀ (Real.sqrt_nonneg _) f4 2
        rw [sqs (varAlong_nonneg _ _), mul_pow, ← eζ] at f5
        have f3 := sq_add_perturbed (p := Real.sqrt (varAlong C' w)) (q := Real.sqrt (varAlong Ls' (w ᵥ* K'))) hh0
        rw [sqs hb', sqs (varAlong_nonneg _ _)] at f3
        have := mul_le_mul_of_nonneg_left f3 (Real.exp_pos ζ).le
        calc _ ≤ Real.exp ζ * (varAlong C' w + (Real.sqrt (varAlong Ls' (w ᵥ* K')) + h * Real.sqrt (varAlong C' w)) ^ 2) := by linarith
          _ ≤ _ := this
          _ = _ := by ring
    have hfin : SpreadNear ε (hcat C' (K' * Ls')) S' := by rw [hS']; exact ht.near _ _
    have := hpre.trans hfin
    rwa [add_assoc] at this
  · intro w
    simp only [hK, ← hKd, ← hS]
    rw [hV]
    obtain ⟨e, he⟩ : ∃ e, e = m' - m := ⟨_, rfl⟩
    obtain ⟨es, hes⟩ : ∃ es, es = ms' - ms := ⟨_, rfl⟩
    rw [← he] at hm
    rw [← hes] at hms
    have hge := gain_error hTT hId u' w
    rw [← hKd] at hge
    have e1 : w ⬝ᵥ (m' + K' *ᵥ (ms' - (b + F *ᵥ m')) - (m + K *ᵥ (ms - (b + F *ᵥ m)))) =
        ((w - (w ᵥ* K) ᵥ* F) ⬝ᵥ e + w ⬝ᵥ (G' *ᵥ u' - K *ᵥ (I' *ᵥ u'))) + (w ᵥ* K) ⬝ᵥ es := by
      have e2 : K' *ᵥ (ms' - (b + F *ᵥ m')) = G' *ᵥ u' := by rw [← hv', Matrix.mulVec_mulVec, hKI']
      have e3 : K *ᵥ (ms - (b + F *ᵥ m)) = K *ᵥ (I' *ᵥ u') - K *ᵥ es + K *ᵥ (F *ᵥ e) := by
        have e4 : ms - (b + F *ᵥ m) = (ms' - (b + F *ᵥ m')) - es + F *ᵥ e := by
          rw [hes, he, Matrix.mulVec_sub F]; abel
        rw [e4, Matrix.mulVec_add, Matrix.mulVec_sub, hv']
      rw [e2, e3, sub_dotProduct, ← dotProduct_mulVec, ← dotProduct_mulVec, ← dotProduct_mulVec, ← dotProduct_sub, ← dotProduct_add,
        ← dotProduct_add]
      congr 1
      rw [he]; abel
    have t1 : |(w - (w ᵥ* K) ᵥ* F) ⬝ᵥ e| ≤ cf * Real.sqrt (varAlong C w) := by
      refine (hm _).trans (mul_le_mul_of_nonneg_left (Real.sqrt_le_sqrt ?_) hcf)
      have h1 := hjoint (-(w ᵥ* K)) w
      rw [hKd, varAlong_resid hId, ← hKd, Matrix.neg_vecMul] at h1
      have h2 := varAlong_nonneg cholQ (-(w ᵥ* K))
      rw [sub_eq_neg_add]
      linarith
    have t2 : |w ⬝ᵥ (G' *ᵥ u' - K *ᵥ (I' *ᵥ u'))| ≤ gainErr (η + ε) * size u' * Real.sqrt (varAlong C w) := by
      refine (Real.abs_le_sqrt hge).trans (le_of_eq ?_)
      have e3 : Real.sinh (η + ε) ^ 2 * Real.exp (η + ε) * ((u' ⬝ᵥ u') * varAlong C w) =
          (gainErr (η + ε) * size u') ^ 2 * varAlong C w := by
        have e4 : Real.exp (η + ε) = Real.exp ((η + ε) / 2) ^ 2 := by rw [← Real.exp_nat_mul]; congr 1; push_cast; ring
        rw [gainErr, e4, ← size_sq]; ring
      rw [e3, Real.sqrt_mul (sq_nonneg _), Real.sqrt_sq (mul_nonneg hg0 (size_nonneg _))]
    have t3 := hms (w ᵥ* K)
    rw [e1]
    have t4 : |((w - (w ᵥ* K) ᵥ* F) ⬝ᵥ e + w ⬝ᵥ (G' *ᵥ u' - K *ᵥ (I' *ᵥ u'))) + (w ᵥ* K) ⬝ᵥ es| ≤
        (cf + gainErr (η + ε) * size u') * Real.sqrt (varAlong C w) + cs * Real.sqrt (varAlong Ls (w ᵥ* K)) := by
      refine (abs_add_le _ _).trans (add_le_add ((abs_add_le _ _).trans ?_) t3)
      rw [add_mul]
      exact add_le_add t1 t2
    refine t4.trans ?_
    rw [← Real.sqrt_mul (by positivity)]
    refine Real.le_sqrt_of_sq_le ?_
    obtain ⟨p, hp⟩ : ∃ p, p = Real.sqrt (varAlong C w) := ⟨_, rfl⟩
    obtain ⟨q, hq⟩ : ∃ q, q = Real.sqrt (varAlong Ls (w ᵥ* K)) := ⟨_, rfl⟩
    have hp2 : varAlong C w = p ^ 2 := by rw [hp, Real.sq_sqrt (varAlong_nonneg _ _)]
    have hq2 : varAlong Ls (w ᵥ* K) = q ^ 2 := by rw [hq, Real.sq_sqrt (varAlong_nonneg _ _)]
    rw [← hp, ← hq, hp2, hq2]
    nlinarith [sq_nonneg ((cf + gainErr (η + ε) * size u') * q - cs * p)]

/-! ## The whole backward pass -/

/-- An update does not increase variances. -/
theorem update_var_le (qr : QR) (m : Fin nx → ℝ) (L : Matrix (Fin nx) (Fin nx) ℝ) (H : Matrix (Fin ny) (Fin nx) ℝ) (d : Fin ny → ℝ)
    (cholR : Matrix (Fin ny) (Fin ny) ℝ) (y : Fin ny → Option ℝ) (l : ℝ) {s : Updated nx ny}
    (hs : updateWith (exactTriang qr) m L H d cholR y l = some s) (w : Fin nx → ℝ) : varAlong s.chol w ≤ varAlong L w := by
  have h0 : (exactTriang qr).Accurate 0 := exactTriang_accurate qr le_rfl
  simp only [updateWith, Option.bind_eq_bind, Option.bind_eq_some_iff, Option.pure_def, Option.some.injEq] at hs
  obtain ⟨o, ho⟩ : ∃ o, o = collectWith (exactTriang qr) H d cholR y := ⟨_, rfl⟩
  rw [← ho] at hs
  obtain ⟨T, hT⟩ : ∃ T, T = (exactTriang qr).sq (block (o.H * L) o.cholR L 0) (Nat.add_comm _ _).le := ⟨_, rfl⟩
  rw [← hT] at hs
  obtain ⟨v, -, q, -, rfl⟩ := hs
  have hl : IsLower T := by rw [hT]; exact h0.lower _ _
  have h1 := varAlong_bottom_le (I := topLeft T) (G := bottomLeft T) (C := bottomRight T) 0 w
  rw [← eq_block_of_lower hl] at h1
  refine h1.trans ?_
  have h2 := (h0.near (block (o.H * L) o.cholR L 0) (Nat.add_comm _ _).le (Fin.append 0 w)).1
  rw [← hT, Real.exp_zero, one_mul, varAlong_joint, Matrix.zero_vecMul, zero_add] at h2
  have h3 : varAlong o.cholR 0 = 0 := by rw [varAlong, Matrix.zero_vecMul, dotProduct_zero]
  linarith

theorem predict_var (qr : QR) (m : Fin nx → ℝ) (L F : Matrix (Fin nx) (Fin nx) ℝ) (c : Fin nx → ℝ) (cholQ : Matrix (Fin nx) (Fin nx) ℝ)
    (w : Fin nx → ℝ) : varAlong (predictWith (exactTriang qr) m L F c cholQ).2 w ≤ varAlong (hcat (F * L) cholQ) w := by
  have h0 : (exactTriang qr).Accurate 0 := exactTriang_accurate qr le_rfl
  have := (h0.near (hcat (F * L) cholQ) (Nat.le_add_left _ _) w).1
  rwa [Real.exp_zero, one_mul] at this

variable (steps : ℕ → Step nx ny) (m₀ : Fin nx → ℝ) (L₀ : Matrix (Fin nx) (Fin nx) ℝ)

theorem smoothSpread_ge {ε : ℝ} (hε : 0 ≤ ε) (T k : ℕ) : 2 * T * ε ≤ smoothSpread ε T k := by
  rw [smoothSpread, le_add_iff_nonneg_right]
  refine Finset.sum_nonneg fun i _ => ?_
  have : 0 ≤ predErr ε (T - (i + 1)) := mul_nonneg (by positivity) hε
  have := Real.sinh_nonneg_iff.mpr this
  positivity

theorem smoothSize_nonneg (tri : Triang) (T k : ℕ) : 0 ≤ smoothSize tri steps m₀ L₀ T k := by
  unfold smoothSize
  split
  · exact size_nonneg _
  · exact le_rfl

/-- **C133.** Filtering and smoothing with a triangularisation that knows each covariance up to a factor `exp ε` in every direction, as
long as exact smoothing returns numbers: `k` steps before the end the smoother also returns numbers, the smoothing variance of every
linear combination of the state is right up to a factor `exp (smoothSpread ε T k)` (of the order of `T² ε`), and its mean is off by at most
`smoothErr` of its standard deviations: the errors of the filter means and of the smoother's own gains, added in squares. -/
theorem smooth_rounding (qr : QR) {tri : Triang} {ε : ℝ} (hε : 0 ≤ ε) (ht : tri.Accurate ε) (T k : ℕ) (hk : k ≤ T) (s : Smoothed nx)
    (hs : smoothWith (exactTriang qr) steps m₀ L₀ T k = some s) :
    ∃ s', smoothWith tri steps m₀ L₀ T k = some s' ∧ SpreadNear (smoothSpread ε T k) s.chol s'.chol ∧
      ∀ w, |w ⬝ᵥ (s'.mean - s.mean)| ≤
        smoothErr ε (innovSize tri steps m₀ L₀) (smoothSize tri steps m₀ L₀ T) T k * Real.sqrt (varAlong s.chol w) := by
  suffices H : (∃ f, onlineWith (exactTriang qr) steps m₀ L₀ (T - k) = some f ∧ ∀ w, varAlong s.chol w ≤ varAlong f.chol w) ∧
    ∃ s', smoothWith tri steps m₀ L₀ T k = some s' ∧ SpreadNear (smoothSpread ε T k) s.chol s'.chol ∧
      ∀ w, |w ⬝ᵥ (s'.mean - s.mean)| ≤
        smoothErr ε (innovSize tri steps m₀ L₀) (smoothSize tri steps m₀ L₀ T) T k * Real.sqrt (varAlong s.chol w) from H.2
  have hν := innovSize_nonneg steps m₀ L₀ tri
  induction k generalizing s with
  | zero =>
    rw [smoothWith, Option.map_eq_some_iff] at hs
    obtain ⟨f, hf, rfl⟩ := hs
    obtain ⟨f', hf', h1, h2, -⟩ := online_rounding steps m₀ L₀ qr hε ht T f hf
    refine ⟨⟨f, hf, fun w => le_rfl⟩, ⟨f'.mean, f'.chol, 0⟩, by rw [smoothWith, hf']; rfl, ?_, fun w => ?_⟩
    · rw [smoothSpread, Finset.sum_range_zero, add_zero]; exact h1
    · rw [smoothErr, Finset.sum_range_zero, add_zero, Real.sqrt_sq (meanErr_nonneg hε hν T)]; exact h2 w
  | succ k ih =>
    rw [smoothWith, Option.bind_eq_bind, Option.bind_eq_some_iff] at hs
    obtain ⟨r, hr, hs⟩ := hs
    rw [Option.bind_eq_bind, Option.bind_eq_some_iff] at hs
    obtain ⟨f, hf, hs⟩ := hs
    obtain ⟨⟨f1, hf1, hle⟩, r', hr', q1, q2⟩ := ih (by omega) r hr
    obtain ⟨f', hf', h1, h2, -⟩ := online_rounding steps m₀ L₀ qr hε ht _ f hf
    obtain ⟨t, htt⟩ : ∃ t, t = T - (k + 1) := ⟨_, rfl⟩
    have et : T - k = t + 1 := by omega
    rw [← htt] at hf hf' h1 h2 hs
    rw [et, onlineWith, hf] at hf1
    have hup : ∀ x, varAlong r.chol x ≤ varAlong (hcat ((steps t).F * f.chol) (steps t).cholQ) x := fun x =>
      (hle x).trans ((update_var_le qr _ _ _ _ _ _ _ hf1 x).trans (predict_var qr _ _ _ _ _ x))
    have hζ : 2 * (t : ℝ) * ε + ε ≤ smoothSpread ε T k := by
      refine le_trans ?_ (smoothSpread_ge hε T k)
      have : (t : ℝ) + 1 ≤ T := by exact_mod_cast (by omega : t + 1 ≤ T)
      nlinarith
    obtain ⟨v1, s', hs', v2, v3⟩ := smoother_near qr hε (by positivity) hζ (meanErr_nonneg hε hν t) ht h1 h2 q1 q2
      (steps t).F (steps t).c (steps t).cholQ hup hs
    have hrun : smoothWith tri steps m₀ L₀ T (k + 1) = some s' := by
      rw [smoothWith, hr', ← htt]
      simp only [Option.bind_eq_bind, Option.bind_some, hf']
      exact hs'
    have hσ : smoothSize tri steps m₀ L₀ T (k + 1) = size s'.white := by rw [smoothSize, hrun]
    have ep : 2 * (t : ℝ) * ε + ε = predErr ε (T - (k + 1)) := by rw [← htt, predErr]; ring
    rw [ep] at v2 v3
    refine ⟨⟨f, by rw [← htt]; exact hf, v1⟩, s', hrun, ?_, fun w => ?_⟩
    · rw [smoothSpread, Finset.sum_range_succ, ← add_assoc, ← smoothSpread]; exact v2
    · have e2 : smoothErr ε (innovSize tri steps m₀ L₀) (smoothSize tri steps m₀ L₀ T) T (k + 1) =
          Real.sqrt (smoothErr ε (innovSize tri steps m₀ L₀) (smoothSize tri steps m₀ L₀ T) T k ^ 2 +
            (meanErr ε (innovSize tri steps m₀ L₀) t + gainErr (predErr ε (T - (k + 1))) * size s'.white) ^ 2) := by
        rw [smoothErr, Finset.sum_range_succ, ← add_assoc, hσ, smoothErr, Real.sq_sqrt, ← htt]
        exact add_nonneg (sq_nonneg _) (Finset.sum_nonneg fun i _ => sq_nonneg _)
      rw [e2]
      exact v3 w

/-- **C133** (first order). As long as `4 T ε ≤ 1`, all smoothing variances are right up to a factor `exp (12 T² ε)`. -/
theorem smoothSpread_le {ε : ℝ} (hε : 0 ≤ ε) (T k : ℕ) (hk : k ≤ T) (hsmall : 4 * T * ε ≤ 1) : smoothSpread ε T k ≤ 12 * T ^ 2 * ε := by
  have hterm : ∀ i ∈ Finset.range k, 2 * (Real.sinh (predErr ε (T - (i + 1))) * Real.exp (predErr ε (T - (i + 1)))) + ε ≤
      (12 * T - 5) * ε := by
    intro i hi
    obtain ⟨t, ht⟩ : ∃ t, t = T - (i + 1) := ⟨_, rfl⟩
    have hi' := Finset.mem_range.mp hi
    have htT : (t : ℝ) + 1 ≤ T := by exact_mod_cast (by omega : t + 1 ≤ T)
    rw [← ht]
    obtain ⟨η, hη⟩ : ∃ η, η = predErr ε t := ⟨_, rfl⟩
    have h0 : 0 ≤ η := by rw [hη]; exact mul_nonneg (by positivity) hε
    have h1 : η ≤ (2 * T - 1) * ε := by rw [hη, predErr]; exact mul_le_mul_of_nonneg_right (by linarith) hε
    have h2 : η ≤ 1 / 2 := by nlinarith
    have h3 := gainErr_le h0 h2
    have h4 : Real.exp (η / 2) ≤ 1 / (1 - η / 2) := Real.exp_bound_div_one_sub_of_interval (by linarith) (by linarith)
    have h5 : 1 / (1 - η / 2) ≤ 3 / 2 := by
      rw [div_le_iff₀ (by linarith)]; linarith
    have h6 : Real.sinh η * Real.exp η = gainErr η * Real.exp (η / 2) := by
      rw [gainErr, mul_assoc, ← Real.exp_add]; congr 2; ring
    have h7 : gainErr η * Real.exp (η / 2) ≤ 2 * η * (3 / 2) :=
      mul_le_mul h3 (h4.trans h5) (Real.exp_pos _).le (by linarith)
    rw [← hη, h6]
    nlinarith
  have hsum := Finset.sum_le_card_nsmul _ _ _ hterm
  rw [Finset.card_range, nsmul_eq_mul] at hsum
  rw [smoothSpread]
  have hkT : (k : ℝ) ≤ T := by exact_mod_cast hk
  rcases Nat.eq_zero_or_pos T with h | h
  · subst h
    have : k = 0 := by omega
    subst this
    simp
  · have hT : (1 : ℝ) ≤ T := by exact_mod_cast h
    have h1 : (k : ℝ) * ((12 * T - 5) * ε) ≤ T * ((12 * T - 5) * ε) :=
      mul_le_mul_of_nonneg_right hkT (mul_nonneg (by linarith) hε)
    nlinarith [mul_nonneg (by linarith : (0 : ℝ) ≤ T) hε]

/-- The exact run of C133 is `smoothing.update`. -/
theorem smooth_exact (qr : QR) (T k : ℕ) (s : Smoothed nx) (hs : smoothWith (exactTriang qr) steps m₀ L₀ T (k + 1) = some s) :
    ∃ r f gain, smoothWith (exactTriang qr) steps m₀ L₀ T k = some r ∧ onlineWith (exactTriang qr) steps m₀ L₀ (T - (k + 1)) = some f ∧
      let u := steps (T - (k + 1))
      smootherUpdate qr f.mean f.chol r.mean r.chol u.F u.c u.cholQ = some ((s.mean, s.chol), gain) := by
  rw [smoothWith, Option.bind_eq_bind, Option.bind_eq_some_iff] at hs
  obtain ⟨r, hr, hs⟩ := hs
  rw [Option.bind_eq_bind, Option.bind_eq_some_iff] at hs
  obtain ⟨f, hf, hs⟩ := hs
  have h := smootherUpdateWith_exact qr f.mean f.chol r.mean r.chol (steps (T - (k + 1))).F (steps (T - (k + 1))).c
    (steps (T - (k + 1))).cholQ
  rw [hs, Option.map_some] at h
  obtain ⟨⟨x, g⟩, hx, hx'⟩ := Option.map_eq_some_iff.mp h.symm
  refine ⟨r, f, g, hr, hf, ?_⟩
  exact hx.trans (congrArg (fun z => some (z, g)) hx')

/-- Full-rank noise is enough for exact smoothing to return numbers. -/
theorem smooth_exact_exists (qr : QR) (hR : ∀ t, (steps t).R.det ≠ 0) (hQ : ∀ t, (steps t).cholQ.det ≠ 0) (T k : ℕ) :
    ∃ s, smoothWith (exactTriang qr) steps m₀ L₀ T k = some s := by
  induction k with
  | zero =>
    obtain ⟨f, hf⟩ := online_exact_exists steps m₀ L₀ qr hR T
    exact ⟨_, by rw [smoothWith, hf]; rfl⟩
  | succ k ih =>
    obtain ⟨r, hr⟩ := ih
    obtain ⟨f, hf⟩ := online_exact_exists steps m₀ L₀ qr hR (T - (k + 1))
    obtain ⟨u, hu⟩ : ∃ u, u = steps (T - (k + 1)) := ⟨_, rfl⟩
    have h0 : (exactTriang qr).Accurate 0 := exactTriang_accurate qr le_rfl
    obtain ⟨S, hS⟩ : ∃ S, S = (exactTriang qr).sq (block (u.F * f.chol) u.cholQ f.chol 0) le_rfl := ⟨_, rfl⟩
    have hl : IsLower S := by rw [hS]; exact h0.lower _ _
    have hd : (topLeft S).det ≠ 0 := by
      intro hz
      obtain ⟨v, hv, hvz⟩ := Matrix.exists_vecMul_eq_zero_iff.mpr hz
      have h1 := (h0.near (block (u.F * f.chol) u.cholQ f.chol 0) le_rfl (Fin.append v 0)).2
      rw [← hS, Real.exp_zero, one_mul, varAlong_joint, eq_block_of_lower hl, varAlong_top] at h1
      have h6 : varAlong (topLeft S) v = 0 := by rw [varAlong, hvz, dotProduct_zero]
      rw [h6] at h1
      have h2 := varAlong_nonneg f.chol (v ᵥ* u.F + 0)
      have h3 : varAlong u.cholQ v ≤ 0 := by linarith
      have h4 : v ᵥ* u.cholQ = 0 := dotProduct_self_eq_zero.mp (le_antisymm h3 (dot_self_nonneg _))
      have h5 : u.cholQ.det = 0 := Matrix.exists_vecMul_eq_zero_iff.mp ⟨v, hv, h4⟩
      rw [hu] at h5
      exact hQ _ h5
    have hdiag := (isLower_topLeft hl).det_ne_zero_iff.mp hd
    rw [smoothWith, hr, hf]
    simp only [Option.bind_eq_bind, Option.bind_some, smootherUpdateWith, ← hu, ← hS, smootherUpdate.solveLowerTrans, if_pos hdiag,
      Option.map_some]
    exact ⟨_, rfl⟩

end Cuthbert.Kalman
