import Verif.Lemmas.RoundedKalman
import Verif.Lemmas.Kalman

/-!
# C132: the Kalman filter with an inexact triangularisation
-/

namespace Cuthbert.Kalman
open Matrix Cuthbert Spec

variable {n nx ny : ℕ}

theorem exactTriang_accurate (qr : QR) {ε : ℝ} (hε : 0 ≤ ε) : (exactTriang qr).Accurate ε where
  lower A h i j hij := triaSq_lower qr A h i j hij
  near A h := spreadNear_of_gram (triaSq_gram qr A h).symm hε

theorem predictWith_exact (qr : QR) (m : Fin nx → ℝ) (cholP F : Matrix (Fin nx) (Fin nx) ℝ) (c : Fin nx → ℝ)
    (cholQ : Matrix (Fin nx) (Fin nx) ℝ) : predictWith (exactTriang qr) m cholP F c cholQ = predict qr m cholP F c cholQ := rfl

/-- With an exact triangularisation the model is the one of `update`. -/
theorem updateWith_exact (qr : QR) (m : Fin nx → ℝ) (cholP : Matrix (Fin nx) (Fin nx) ℝ)
    (H : Matrix (Fin ny) (Fin nx) ℝ) (d : Fin ny → ℝ) (cholR : Matrix (Fin ny) (Fin ny) ℝ)
    (y : Fin ny → Option ℝ) (l : ℝ) (s : Updated nx ny) (h : updateWith (exactTriang qr) m cholP H d cholR y l = some s) :
    let r := update qr m cholP H d cholR y (some l)
    r.mean = some s.mean ∧ r.chol = s.chol ∧ r.ell = some s.ell := by
  simp only [updateWith, Option.bind_eq_bind, Option.bind_eq_some_iff, Option.pure_def, Option.some.injEq] at h
  obtain ⟨v, hv, l', hl', rfl⟩ := h
  refine ⟨?_, rfl, ?_⟩
  · exact congrArg (Option.map _) hv
  · have : (update qr m cholP H d cholR y (some l)).ell = (do
      let l' ← logpdfMat (collectWith (exactTriang qr) H d cholR y).y
        ((collectWith (exactTriang qr) H d cholR y).H *ᵥ m + (collectWith (exactTriang qr) H d cholR y).d)
        (topLeft ((exactTriang qr).sq (block ((collectWith (exactTriang qr) H d cholR y).H * cholP)
          (collectWith (exactTriang qr) H d cholR y).cholR cholP 0) (Nat.add_comm _ _).le))
      let l₀ ← some l
      return l' + l₀) := rfl
    rw [this, hl']; rfl

/-! ## Missing components -/

theorem varAlong_patched {f : Fin n → Bool} (hf : Monotone f) {L : Matrix (Fin n) (Fin n) ℝ} (hl : IsLower L)
    (h0 : ∀ i, f i = true → ∀ j, L i j = 0) (s : ℝ) (x : Fin n → ℝ) :
    varAlong (Matrix.of fun i j => if i = j then (if f i then s else L i i) else L i j) x =
      varAlong L x + ∑ c, if f c then (x c * s) ^ 2 else 0 := by
  have hcol : ∀ c, f c = true → ∀ i, L i c = 0 := by
    intro c hc i
    rcases lt_or_ge i c with h | h
    · exact hl i c h
    · exact h0 i (le_antisymm le_top ((le_of_eq hc.symm).trans (hf h))) c
  rw [varAlong, varAlong, dotProduct, dotProduct, ← Finset.sum_add_distrib]
  refine Finset.sum_congr rfl fun c _ => ?_
  by_cases hc : f c = true
  · have e1 : (x ᵥ* L) c = 0 := by
      rw [Matrix.vecMul, dotProduct]
      exact Finset.sum_eq_zero fun i _ => by rw [hcol c hc i, mul_zero]
    have e2 : (x ᵥ* (Matrix.of fun i j => if i = j then (if f i then s else L i i) else L i j)) c = x c * s := by
      rw [Matrix.vecMul, dotProduct, Finset.sum_eq_single c]
      · simp [hc]
      · intro i _ hi
        rw [Matrix.of_apply, if_neg hi, hcol c hc i, mul_zero]
      · simp
    rw [e1, e2, if_pos hc]; ring
  · have e2 : (x ᵥ* (Matrix.of fun i j => if i = j then (if f i then s else L i i) else L i j)) c = (x ᵥ* L) c := by
      rw [Matrix.vecMul, Matrix.vecMul, dotProduct, dotProduct]
      refine Finset.sum_congr rfl fun i _ => ?_
      rw [Matrix.of_apply]
      by_cases hi : i = c
      · subst hi; simp [hc]
      · rw [if_neg hi]
    rw [e2, if_neg hc, add_zero]

theorem collectMatWith_near (qr : QR) {tri : Triang} {ε : ℝ} (hε : 0 ≤ ε) (ht : tri.Accurate ε) (flag : Fin n → Bool)
    (chol : Matrix (Fin n) (Fin n) ℝ) : SpreadNear ε (collectMatWith (exactTriang qr) flag chol) (collectMatWith tri flag chol) := by
  obtain ⟨M, hM⟩ : ∃ M : Matrix (Fin n) (Fin n) ℝ, M = Matrix.of fun i j =>
      (Matrix.of fun i j => if flag i then 0 else chol i j : Matrix (Fin n) (Fin n) ℝ) (stableArgsort flag i) j := ⟨_, rfl⟩
  have hrow : ∀ i, flag (stableArgsort flag i) = true → ∀ {k : ℕ} (L : Matrix (Fin n) (Fin k) ℝ) (η : ℝ), SpreadNear η M L →
      ∀ j, L i j = 0 := by
    intro i hi k L η hL j
    have h1 := (hL (Pi.single i 1)).1
    have e1 : varAlong M (Pi.single i 1) = 0 := by
      rw [varAlong, Matrix.single_one_vecMul]
      have : M i = 0 := by funext j; rw [hM]; simp [hi]
      rw [show M.row i = 0 from this]; simp
    rw [e1, mul_zero, varAlong, Matrix.single_one_vecMul] at h1
    have := dotProduct_self_eq_zero.mp (le_antisymm h1 (dot_self_nonneg _))
    exact congrFun this j
  have hmono := stableArgsort_monotone flag
  have key : ∀ (t : Triang) (η : ℝ), t.Accurate η → ∀ x, varAlong (collectMatWith t flag chol) x =
      varAlong (t.sq M le_rfl) x + ∑ c, if flag (stableArgsort flag c) then (x c * missingScale) ^ 2 else 0 := by
    intro t η h x
    have := varAlong_patched (f := flag ∘ stableArgsort flag) hmono (h.lower M le_rfl)
      (fun i hi j => hrow i hi _ η (h.near M le_rfl) j) missingScale x
    rw [hM] at this ⊢
    exact this
  intro x
  have h0 : (exactTriang qr).Accurate 0 := exactTriang_accurate qr le_rfl
  rw [key tri ε ht, key _ 0 h0]
  have hn : SpreadNear ε ((exactTriang qr).sq M le_rfl) (tri.sq M le_rfl) := by
    have := (h0.near M le_rfl).symm.trans (ht.near M le_rfl)
    rwa [zero_add] at this
  have hs : 0 ≤ ∑ c, if flag (stableArgsort flag c) then (x c * missingScale) ^ 2 else 0 :=
    Finset.sum_nonneg fun c _ => by split_ifs <;> positivity
  have h1 : 1 ≤ Real.exp ε := Real.one_le_exp hε
  obtain ⟨p, q⟩ := hn x
  constructor <;> nlinarith

/-! ## One step -/

theorem predict_near (qr : QR) {tri : Triang} {ε η c : ℝ} (hη : 0 ≤ η) (hc : 0 ≤ c) (ht : tri.Accurate ε)
    {m m' : Fin nx → ℝ} {L L' : Matrix (Fin nx) (Fin nx) ℝ} (hL : SpreadNear η L L')
    (hm : ∀ w, |w ⬝ᵥ (m' - m)| ≤ c * Real.sqrt (varAlong L w)) (F : Matrix (Fin nx) (Fin nx) ℝ) (b : Fin nx → ℝ)
    (cholQ : Matrix (Fin nx) (Fin nx) ℝ) :
    let p := predictWith (exactTriang qr) m L F b cholQ
    let p' := predictWith tri m' L' F b cholQ
    SpreadNear (η + ε) p.2 p'.2 ∧ ∀ w, |w ⬝ᵥ (p'.1 - p.1)| ≤ c * Real.sqrt (varAlong p.2 w) := by
  intro p p'
  have h0 : (exactTriang qr).Accurate 0 := exactTriang_accurate qr le_rfl
  constructor
  · have := ((h0.near (hcat (F * L) cholQ) (Nat.le_add_left _ _)).symm.trans (SpreadNear.hcat hη hL F cholQ)).trans
      (ht.near (hcat (F * L') cholQ) (Nat.le_add_left _ _))
    rwa [zero_add] at this
  · intro w
    have e1 : w ⬝ᵥ (p'.1 - p.1) = (w ᵥ* F) ⬝ᵥ (m' - m) := by
      rw [← dotProduct_mulVec, Matrix.mulVec_sub]
      congr 1
      simp [p, p', predictWith]
    rw [e1]
    refine (hm _).trans (mul_le_mul_of_nonneg_left (Real.sqrt_le_sqrt ?_) hc)
    have h1 := (h0.near (hcat (F * L) cholQ) (Nat.le_add_left _ _) w).2
    rw [Real.exp_zero, one_mul, varAlong_hcat, varAlong_mul] at h1
    have h2 := varAlong_nonneg cholQ w
    exact le_trans (by linarith) h1

theorem lower_block {a b : ℕ} {L : Matrix (Fin (a + b)) (Fin (a + b)) ℝ} (h : ∀ i j, i < j → L i j = 0) :
    L = block (topLeft L) 0 (bottomLeft L) (bottomRight L) := eq_block_of_lower h

theorem sum_log_near {T T' : Matrix (Fin n) (Fin n) ℝ} (hT : IsLower T) (hT' : IsLower T') (hd : T.det ≠ 0) {η : ℝ}
    (h : SpreadNear η T T') : abs ((∑ i, Real.log |T' i i|) - ∑ i, Real.log |T i i|) ≤ n * η / 2 := by
  have hd' := spread_det h hd
  have hz := hT.det_ne_zero_iff.mp hd
  have hz' := hT'.det_ne_zero_iff.mp hd'
  have one : ∀ {A B : Matrix (Fin n) (Fin n) ℝ}, IsLower A → IsLower B → A.det ≠ 0 → (∀ i, A i i ≠ 0) → (∀ i, B i i ≠ 0) →
      SpreadNear η A B → ∀ i, Real.log |B i i| - Real.log |A i i| ≤ η / 2 := by
    intro A B hA hB hdA hzA hzB hn i
    have h1 := diag_near hA hB hdA hn i
    have pA : 0 < A i i ^ 2 := by have := hzA i; positivity
    have pB : 0 < B i i ^ 2 := by have := hzB i; positivity
    have h2 := Real.log_le_log pB h1
    rw [Real.log_mul (Real.exp_pos _).ne' pA.ne', Real.log_exp, Real.log_pow, Real.log_pow] at h2
    rw [Real.log_abs, Real.log_abs]
    push_cast at h2
    linarith
  rw [← Finset.sum_sub_distrib]
  refine (Finset.abs_sum_le_sum_abs _ _).trans ?_
  refine (Finset.sum_le_card_nsmul _ _ (η / 2) fun i _ => ?_).trans (le_of_eq ?_)
  · rw [abs_le]
    constructor
    · linarith [one hT' hT hd' hz' hz h.symm i]
    · exact one hT hT' hd hz hz' h i
  · rw [Finset.card_univ, Fintype.card_fin, nsmul_eq_mul]; ring

theorem update_near (qr : QR) {tri : Triang} {ε η c : ℝ} (hε : 0 ≤ ε) (hη : ε ≤ η) (hc : 0 ≤ c) (ht : tri.Accurate ε)
    {m m' : Fin nx → ℝ} {L L' : Matrix (Fin nx) (Fin nx) ℝ} (hL : SpreadNear η L L')
    (hm : ∀ w, |w ⬝ᵥ (m' - m)| ≤ c * Real.sqrt (varAlong L w)) (H : Matrix (Fin ny) (Fin nx) ℝ) (d : Fin ny → ℝ)
    (cholR : Matrix (Fin ny) (Fin ny) ℝ) (y : Fin ny → Option ℝ) (l l' : ℝ) {s : Updated nx ny}
    (hs : updateWith (exactTriang qr) m L H d cholR y l = some s) :
    ∃ s', updateWith tri m' L' H d cholR y l' = some s' ∧ SpreadNear (η + ε) s.chol s'.chol ∧
      (∀ w, |w ⬝ᵥ (s'.mean - s.mean)| ≤ (c + gainErr (η + ε) * size s'.white) * Real.sqrt (varAlong s.chol w)) ∧
      |(s'.ell - l') - (s.ell - l)| ≤ ellErr ny (η + ε) c (size s'.white) := by
  have h0 : (exactTriang qr).Accurate 0 := exactTriang_accurate qr le_rfl
  simp only [updateWith, Option.bind_eq_bind, Option.bind_eq_some_iff, Option.pure_def, Option.some.injEq] at hs
  obtain ⟨o, ho⟩ : ∃ o, o = collectWith (exactTriang qr) H d cholR y := ⟨_, rfl⟩
  obtain ⟨o', ho'⟩ : ∃ o', o' = collectWith tri H d cholR y := ⟨_, rfl⟩
  have eH : o'.H = o.H := by rw [ho, ho']; rfl
  have ed : o'.d = o.d := by rw [ho, ho']; rfl
  have ey : o'.y = o.y := by rw [ho, ho']; rfl
  have hR : SpreadNear ε o.cholR o'.cholR := by
    rw [ho, ho']; exact collectMatWith_near qr hε ht (isNan y) cholR
  rw [← ho] at hs
  obtain ⟨T, hT⟩ : ∃ T, T = (exactTriang qr).sq (block (o.H * L) o.cholR L 0) (Nat.add_comm _ _).le := ⟨_, rfl⟩
  obtain ⟨T', hT'⟩ : ∃ T', T' = tri.sq (block (o.H * L') o'.cholR L' 0) (Nat.add_comm _ _).le := ⟨_, rfl⟩
  have hlT : IsLower T := by rw [hT]; exact h0.lower _ _
  have hlT' : IsLower T' := by rw [hT']; exact ht.lower _ _
  rw [← hT] at hs
  have hM : SpreadNear 0 T (block (o.H * L) o.cholR L 0) := by rw [hT]; exact (h0.near _ _).symm
  have hTT : SpreadNear (η + ε) T T' := by
    have h2 : SpreadNear ε (block (o.H * L') o'.cholR L' 0) T' := by rw [hT']; exact ht.near _ _
    have := (hM.trans (SpreadNear.joint hL (hR.mono hη) o.H)).trans h2
    rwa [zero_add] at this
  obtain ⟨I, hI⟩ : ∃ I, I = topLeft T := ⟨_, rfl⟩
  obtain ⟨I', hI'⟩ : ∃ I', I' = topLeft T' := ⟨_, rfl⟩
  obtain ⟨G, hG⟩ : ∃ G, G = bottomLeft T := ⟨_, rfl⟩
  obtain ⟨G', hG'⟩ : ∃ G', G' = bottomLeft T' := ⟨_, rfl⟩
  obtain ⟨C, hC⟩ : ∃ C, C = bottomRight T := ⟨_, rfl⟩
  obtain ⟨C', hC'⟩ : ∃ C', C' = bottomRight T' := ⟨_, rfl⟩
  have hlI : IsLower I := by rw [hI]; exact isLower_topLeft hlT
  have hlI' : IsLower I' := by rw [hI']; exact isLower_topLeft hlT'
  have bT : T = block I 0 G C := by rw [hI, hG, hC]; exact eq_block_of_lower hlT
  have bT' : T' = block I' 0 G' C' := by rw [hI', hG', hC']; exact eq_block_of_lower hlT'
  rw [← hI, ← hG, ← hC] at hs
  rw [bT, bT'] at hTT
  rw [bT] at hM
  obtain ⟨u, hu, q, hq, rfl⟩ := hs
  have hdiag : ∀ i, I i i ≠ 0 := by
    by_contra hcon
    rw [solveLowerVec, if_neg hcon] at hu
    cases hu
  have hId : I.det ≠ 0 := hlI.det_ne_zero_iff.mpr hdiag
  have hII := spread_top hTT
  have hId' : I'.det ≠ 0 := spread_det hII hId
  have hdiag' := hlI'.det_ne_zero_iff.mp hId'
  have iu : IsUnit I.det := isUnit_iff_ne_zero.mpr hId
  have iu' : IsUnit I'.det := isUnit_iff_ne_zero.mpr hId'
  have hsol : ∀ v, solveLowerVec I v = some (I⁻¹ *ᵥ v) := fun v => by rw [solveLowerVec, if_pos hdiag, lowerPart_eq hlI]
  have hsol' : ∀ v, solveLowerVec I' v = some (I'⁻¹ *ᵥ v) := fun v => by rw [solveLowerVec, if_pos hdiag', lowerPart_eq hlI']
  rw [hsol] at hu
  rw [logpdfMat, hsol, Option.map_some] at hq
  obtain ⟨u', hu'⟩ : ∃ u', u' = I'⁻¹ *ᵥ (o.y - (o.H *ᵥ m' + o.d)) := ⟨_, rfl⟩
  have hu1 : u = I⁻¹ *ᵥ (o.y - (o.H *ᵥ m + o.d)) := (Option.some.inj hu).symm
  rw [← hu1] at hq
  have hq1 := (Option.some.inj hq).symm
  have hv' : I' *ᵥ u' = o.y - (o.H *ᵥ m' + o.d) := by
    rw [hu', Matrix.mulVec_mulVec, Matrix.mul_nonsing_inv _ iu', Matrix.one_mulVec]
  obtain ⟨e, he⟩ : ∃ e, e = m' - m := ⟨_, rfl⟩
  rw [← he] at hm
  have hv : o.y - (o.H *ᵥ m + o.d) = I' *ᵥ u' + o.H *ᵥ e := by
    rw [hv', he, Matrix.mulVec_sub]; abel
  have hjoint : ∀ (a : Fin ny → ℝ) (w : Fin nx → ℝ), varAlong L (a ᵥ* o.H + w) ≤ varAlong (block I 0 G C) (Fin.append a w) := by
    intro a w
    have h1 := (hM (Fin.append a w)).1
    rw [Real.exp_zero, one_mul, varAlong_joint] at h1
    linarith [varAlong_nonneg o.cholR a]
  refine ⟨⟨m' + G' *ᵥ u', C', (-1 / 2 * (u' ⬝ᵥ u') - (ny : ℝ) / 2 * Real.log (2 * Real.pi) - ∑ i, Real.log |I' i i|) + l', u'⟩,
    ?_, ?_, ?_, ?_⟩
  · simp only [updateWith]
    rw [← ho', eH, ed, ey, ← hT', ← hI', ← hG', ← hC', hsol', logpdfMat, hsol', ← hu']
    rfl
  · exact spread_bottom hTT hId
  · intro w
    have hge := gain_error hTT hId u' w
    have e1 : w ⬝ᵥ ((m' + G' *ᵥ u') - (m + G *ᵥ u)) =
        (w - (w ᵥ* (G * I⁻¹)) ᵥ* o.H) ⬝ᵥ e + w ⬝ᵥ (G' *ᵥ u' - (G * I⁻¹) *ᵥ (I' *ᵥ u')) := by
      have e2 : G *ᵥ u = (G * I⁻¹) *ᵥ (I' *ᵥ u') + (G * I⁻¹) *ᵥ (o.H *ᵥ e) := by
        rw [hu1, hv, ← Matrix.mulVec_add, Matrix.mulVec_mulVec]
      rw [e2, sub_dotProduct, ← dotProduct_mulVec, ← dotProduct_mulVec, ← dotProduct_sub, ← dotProduct_add]
      congr 1
      rw [he]; abel
    rw [e1, add_mul]
    refine (abs_add_le _ _).trans (add_le_add ?_ ?_)
    · refine (hm _).trans (mul_le_mul_of_nonneg_left (Real.sqrt_le_sqrt ?_) hc)
      have h1 := hjoint (-(w ᵥ* (G * I⁻¹))) w
      rw [varAlong_resid hId, Matrix.neg_vecMul] at h1
      rwa [sub_eq_neg_add]
    · refine (Real.abs_le_sqrt hge).trans (le_of_eq ?_)
      have hpos : 0 ≤ gainErr (η + ε) := mul_nonneg (Real.sinh_nonneg_iff.mpr (by linarith)) (Real.exp_pos _).le
      have e3 : Real.sinh (η + ε) ^ 2 * Real.exp (η + ε) * ((u' ⬝ᵥ u') * varAlong C w) =
          (gainErr (η + ε) * size u') ^ 2 * varAlong C w := by
        have e4 : Real.exp (η + ε) = Real.exp ((η + ε) / 2) ^ 2 := by rw [← Real.exp_nat_mul]; congr 1; push_cast; ring
        rw [gainErr, e4, ← size_sq]; ring
      rw [e3, Real.sqrt_mul (sq_nonneg _), Real.sqrt_sq (mul_nonneg hpos (size_nonneg _))]
  · have hnear := innovation_near hII hId (fun a => by
      have h1 := hjoint a 0
      rwa [add_zero, varAlong_top] at h1) hc hm u'
    rw [← hv, ← hu1] at hnear
    have hlog := sum_log_near hlI hlI' hId hII
    obtain ⟨δ, hδ⟩ : ∃ δ, δ = (Real.exp ((η + ε) / 2) - 1) * size u' + c := ⟨_, rfl⟩
    rw [← hδ] at hnear
    have hquad : |u' ⬝ᵥ u' - u ⬝ᵥ u| ≤ δ * (2 * size u' + δ) := by
      rw [← size_sq, ← size_sq]
      have h1 : size u' ^ 2 - size u ^ 2 = (size u' - size u) * (size u' + size u) := by ring
      rw [h1, abs_mul, abs_sub_comm]
      have h2 : |size u' + size u| ≤ 2 * size u' + δ := by
        rw [abs_of_nonneg (add_nonneg (size_nonneg _) (size_nonneg _))]
        linarith [(abs_le.mp hnear).2]
      exact mul_le_mul hnear h2 (abs_nonneg _) ((abs_nonneg _).trans hnear)
    have e5 : ((-1 / 2 * (u' ⬝ᵥ u') - (ny : ℝ) / 2 * Real.log (2 * Real.pi) - ∑ i, Real.log |I' i i|) + l' - l') - (q + l - l) =
        -(1 / 2) * (u' ⬝ᵥ u' - u ⬝ᵥ u) - (∑ i, Real.log |I' i i| - ∑ i, Real.log |I i i|) := by
      rw [hq1]; ring
    simp only
    rw [e5, ellErr, ← hδ]
    refine (abs_sub _ _).trans (add_le_add ?_ hlog)
    rw [abs_mul]
    have : |(-(1 / 2) : ℝ)| = 1 / 2 := by norm_num
    rw [this]
    linarith

/-! ## Any number of steps -/

variable (steps : ℕ → Step nx ny) (m₀ : Fin nx → ℝ) (L₀ : Matrix (Fin nx) (Fin nx) ℝ)

theorem gainErr_nonneg {η : ℝ} (h : 0 ≤ η) : 0 ≤ gainErr η :=
  mul_nonneg (Real.sinh_nonneg_iff.mpr h) (Real.exp_pos _).le

theorem innovSize_nonneg (tri : Triang) (t : ℕ) : 0 ≤ innovSize tri steps m₀ L₀ t := by
  unfold innovSize
  split
  · exact size_nonneg _
  · exact le_rfl

theorem meanErr_nonneg {ε : ℝ} (hε : 0 ≤ ε) {ν : ℕ → ℝ} (hν : ∀ t, 0 ≤ ν t) (t : ℕ) : 0 ≤ meanErr ε ν t :=
  Finset.sum_nonneg fun j _ => mul_nonneg (gainErr_nonneg (by positivity)) (hν _)

/-- **C132.** Filtering with a triangularisation that knows each covariance up to a factor `exp ε` in every direction, as long
as the exact filter returns numbers: after `t` steps the filter also returns numbers, the variance of every linear combination of the
state is right up to a factor `exp (2 t ε)`, the mean of every linear combination is off by at most `meanErr` of its standard
deviations, and the log-likelihood by at most `logErr`. Both are sums over the standardised innovations that the filter itself
calculates; nothing about the model enters, and errors of earlier steps are never amplified. -/
theorem online_rounding (qr : QR) {tri : Triang} {ε : ℝ} (hε : 0 ≤ ε) (ht : tri.Accurate ε) (t : ℕ) (s : Updated nx ny)
    (hs : onlineWith (exactTriang qr) steps m₀ L₀ t = some s) :
    ∃ s', onlineWith tri steps m₀ L₀ t = some s' ∧ SpreadNear (2 * t * ε) s.chol s'.chol ∧
      (∀ w, |w ⬝ᵥ (s'.mean - s.mean)| ≤
        meanErr ε (innovSize tri steps m₀ L₀) t * Real.sqrt (varAlong s.chol w)) ∧
      |s'.ell - s.ell| ≤ logErr ny ε (innovSize tri steps m₀ L₀) t := by
  induction t generalizing s with
  | zero =>
    rw [onlineWith, Option.some.injEq] at hs
    subst hs
    refine ⟨_, rfl, spreadNear_of_gram rfl (by simp), fun w => ?_, ?_⟩ <;> simp [meanErr, logErr]
  | succ t ih =>
    rw [onlineWith, Option.bind_eq_bind, Option.bind_eq_some_iff] at hs
    obtain ⟨r, hr, hup⟩ := hs
    obtain ⟨r', hr', h1, h2, h3⟩ := ih r hr
    have hc := meanErr_nonneg hε (innovSize_nonneg steps m₀ L₀ tri) t
    have hη : 0 ≤ 2 * (t : ℝ) * ε := by positivity
    obtain ⟨p1, p2⟩ := predict_near qr hη hc ht h1 h2 (steps t).F (steps t).c (steps t).cholQ
    obtain ⟨s', hs', q1, q2, q3⟩ := update_near qr hε (by linarith) hc ht p1 p2 (steps t).H (steps t).d (steps t).cholR
      (steps t).y r.ell r'.ell hup
    have hrun : onlineWith tri steps m₀ L₀ (t + 1) = some s' := by
      rw [onlineWith, hr']; exact hs'
    have hν : innovSize tri steps m₀ L₀ (t + 1) = size s'.white := by rw [innovSize, hrun]
    have e : 2 * (t : ℝ) * ε + ε + ε = 2 * ((t : ℝ) + 1) * ε := by ring
    rw [e] at q1 q2 q3
    refine ⟨s', hrun, ?_, fun w => ?_, ?_⟩
    · push_cast; exact q1
    · rw [meanErr, Finset.sum_range_succ, ← meanErr, hν]; exact q2 w
    · rw [logErr, Finset.sum_range_succ, ← logErr, hν]
      have : s'.ell - s.ell = (r'.ell - r.ell) + ((s'.ell - r'.ell) - (s.ell - r.ell)) := by ring
      rw [this]
      exact (abs_add_le _ _).trans (add_le_add h3 q3)

theorem gainErr_le {η : ℝ} (h : 0 ≤ η) (h' : η ≤ 1 / 2) : gainErr η ≤ 2 * η := by
  have h1 : Real.exp η ≤ 1 / (1 - η) := Real.exp_bound_div_one_sub_of_interval h (by linarith)
  have h2 : Real.exp (η / 2) ≤ 1 / (1 - η / 2) := Real.exp_bound_div_one_sub_of_interval (by linarith) (by linarith)
  have h3 : 1 - η ≤ Real.exp (-η) := by linarith [Real.add_one_le_exp (-η)]
  have h4 : Real.sinh η ≤ η * (1 - η / 2) / (1 - η) := by
    rw [Real.sinh_eq, div_le_iff₀ (by norm_num)]
    have : η * (1 - η / 2) / (1 - η) * 2 = 1 / (1 - η) - (1 - η) := by
      have : 1 - η ≠ 0 := by linarith
      field_simp
      ring
    linarith
  have h5 : 0 ≤ η * (1 - η / 2) / (1 - η) := div_nonneg (mul_nonneg h (by linarith)) (by linarith)
  calc gainErr η ≤ η * (1 - η / 2) / (1 - η) * (1 / (1 - η / 2)) := mul_le_mul h4 h2 (Real.exp_pos _).le h5
    _ = η / (1 - η) := by
      have e2 : 1 - η / 2 ≠ 0 := by linarith
      rw [div_mul_div_comm, mul_one, mul_div_mul_right _ _ e2]
    _ ≤ 2 * η := by
      rw [div_le_iff₀ (by linarith)]; nlinarith

/-- **C132** (first order). As long as `4 t ε ≤ 1` the mean of every linear combination is off by at most
`4 ε ∑ⱼ j ‖νⱼ‖` of its standard deviations. -/
theorem online_rounding_mean (qr : QR) {tri : Triang} {ε : ℝ} (hε : 0 ≤ ε) (ht : tri.Accurate ε) (t : ℕ) (hsmall : 4 * t * ε ≤ 1)
    (s : Updated nx ny) (hs : onlineWith (exactTriang qr) steps m₀ L₀ t = some s) :
    ∃ s', onlineWith tri steps m₀ L₀ t = some s' ∧ ∀ w, |w ⬝ᵥ (s'.mean - s.mean)| ≤
      4 * ε * (∑ j ∈ Finset.range t, (j + 1) * innovSize tri steps m₀ L₀ (j + 1)) * Real.sqrt (varAlong s.chol w) := by
  obtain ⟨s', h1, -, h2, -⟩ := online_rounding steps m₀ L₀ qr hε ht t s hs
  refine ⟨s', h1, fun w => (h2 w).trans (mul_le_mul_of_nonneg_right ?_ (Real.sqrt_nonneg _))⟩
  rw [meanErr, Finset.mul_sum]
  refine Finset.sum_le_sum fun j hj => ?_
  have hj' : ((j : ℝ) + 1) ≤ t := by exact_mod_cast Finset.mem_range.mp hj
  have hb : 2 * ((j : ℝ) + 1) * ε ≤ 1 / 2 := by nlinarith
  have := gainErr_le (by positivity) hb
  have hn := innovSize_nonneg steps m₀ L₀ tri (j + 1)
  calc _ ≤ 2 * (2 * ((j : ℝ) + 1) * ε) * innovSize tri steps m₀ L₀ (j + 1) := mul_le_mul_of_nonneg_right this hn
    _ = _ := by ring

/-- The exact run of C132 is `predict` followed by `update`. -/
theorem online_exact (qr : QR) (t : ℕ) (s : Updated nx ny) (hs : onlineWith (exactTriang qr) steps m₀ L₀ (t + 1) = some s) :
    ∃ r, onlineWith (exactTriang qr) steps m₀ L₀ t = some r ∧
      let p := predict qr r.mean r.chol (steps t).F (steps t).c (steps t).cholQ
      let u := update qr p.1 p.2 (steps t).H (steps t).d (steps t).cholR (steps t).y (some r.ell)
      u.mean = some s.mean ∧ u.chol = s.chol ∧ u.ell = some s.ell := by
  rw [onlineWith, Option.bind_eq_bind, Option.bind_eq_some_iff] at hs
  obtain ⟨r, hr, hup⟩ := hs
  exact ⟨r, hr, updateWith_exact qr _ _ _ _ _ _ _ s hup⟩

/-- Full-rank noise of the observed components is enough for the exact run to return numbers. -/
theorem online_exact_exists (qr : QR) (hR : ∀ t, (steps t).R.det ≠ 0) (t : ℕ) :
    ∃ s, onlineWith (exactTriang qr) steps m₀ L₀ t = some s := by
  induction t with
  | zero => exact ⟨_, rfl⟩
  | succ t ih =>
    obtain ⟨r, hr⟩ := ih
    rw [onlineWith, hr]
    obtain ⟨p, hp⟩ : ∃ p, p = predictWith (exactTriang qr) r.mean r.chol (steps t).F (steps t).c (steps t).cholQ := ⟨_, rfl⟩
    have hd : (innovCov (p.2 * p.2ᵀ) (obsH (steps t).y (steps t).H) (steps t).R).det ≠ 0 := by
      rw [innovCov, add_comm]; exact (isGram_of (obsL (steps t).y (steps t).cholR)).det_add_ne_zero (hR t) ((isGram_of p.2).conj _)
    obtain ⟨h1, -, -, h4⟩ := update_eq qr p.1 p.2 (steps t).H (steps t).d (steps t).cholR (steps t).y r.ell hd
    obtain ⟨o, ho⟩ : ∃ o, o = collectWith (exactTriang qr) (steps t).H (steps t).d (steps t).cholR (steps t).y := ⟨_, rfl⟩
    have h1' : (solveLowerVec (topLeft ((exactTriang qr).sq (block (o.H * p.2) o.cholR p.2 0) (Nat.add_comm _ _).le))
        (o.y - (o.H *ᵥ p.1 + o.d))).map (fun v => p.1 +
          bottomLeft ((exactTriang qr).sq (block (o.H * p.2) o.cholR p.2 0) (Nat.add_comm _ _).le) *ᵥ v) ≠ none := by
      rw [ho]
      intro h0
      have := h1.symm.trans h0
      cases this
    rw [ne_eq, Option.map_eq_none_iff, ← ne_eq, Option.ne_none_iff_exists'] at h1'
    obtain ⟨v, hv⟩ := h1'
    simp only [Option.bind_eq_bind, Option.bind_some, updateWith, ← hp, ← ho, hv, logpdfMat, Option.map_some]
    exact ⟨_, rfl⟩

/-! ## An inexact triangularisation for which the bound is attained -/

/-- Every factor comes out too large by `exp (ε / 2)`. -/
noncomputable def inflatedTriang (qr : QR) (ε : ℝ) : Triang := ⟨fun A h => Real.exp (ε / 2) • triaSq qr A h⟩

theorem varAlong_smul {n k : ℕ} (κ : ℝ) (L : Matrix (Fin n) (Fin k) ℝ) (x : Fin n → ℝ) : varAlong (κ • L) x = κ ^ 2 * varAlong L x := by
  rw [varAlong, Matrix.vecMul_smul, smul_dotProduct, dotProduct_smul, varAlong, smul_eq_mul, smul_eq_mul]; ring

theorem inflatedTriang_sq (qr : QR) (ε : ℝ) {n k : ℕ} (A : Matrix (Fin n) (Fin k) ℝ) (h : n ≤ k) :
    (inflatedTriang qr ε).sq A h = Real.exp (ε / 2) • triaSq qr A h := rfl

theorem inflatedTriang_var (qr : QR) (ε : ℝ) {n k : ℕ} (A : Matrix (Fin n) (Fin k) ℝ) (h : n ≤ k) (x : Fin n → ℝ) :
    varAlong ((inflatedTriang qr ε).sq A h) x = Real.exp ε * varAlong A x := by
  have e : Real.exp (ε / 2) ^ 2 = Real.exp ε := by rw [← Real.exp_nat_mul]; congr 1; push_cast; ring
  rw [inflatedTriang_sq, varAlong_smul, e, varAlong_gram, triaSq_gram, ← varAlong_gram]

theorem inflatedTriang_accurate (qr : QR) {ε : ℝ} (hε : 0 ≤ ε) : (inflatedTriang qr ε).Accurate ε where
  lower A h i j hij := by rw [inflatedTriang_sq, Matrix.smul_apply, triaSq_lower qr A h i j hij, smul_zero]
  near A h x := by
    rw [inflatedTriang_var]
    refine ⟨le_rfl, ?_⟩
    have h1 : 1 ≤ Real.exp ε := Real.one_le_exp hε
    have h2 := varAlong_nonneg A x
    have h3 : 1 ≤ Real.exp ε * Real.exp ε := by nlinarith
    nlinarith

/-- A state that does not move and is never observed. -/
def frozen (nx : ℕ) (_t : ℕ) : Step nx 1 where
  F := 1
  c := 0
  cholQ := 0
  H := 0
  d := 0
  cholR := 1
  y := fun _ => none

theorem frozen_R (t : ℕ) : ((frozen nx t).R).det ≠ 0 := by
  have : IsEmpty (Obs (frozen nx t).y) := ⟨fun i => by
    have := i.2
    simp [frozen] at this⟩
  rw [Matrix.det_isEmpty]
  exact one_ne_zero

/-- Without correlation between the observation and the state, an update with the inflated factors only inflates. -/
theorem frozen_update (qr : QR) (ε : ℝ) (m : Fin nx → ℝ) (L : Matrix (Fin nx) (Fin nx) ℝ) (l : ℝ) (t : ℕ) (s : Updated nx 1)
    (hs : updateWith (inflatedTriang qr ε) m L (frozen nx t).H (frozen nx t).d (frozen nx t).cholR (frozen nx t).y l = some s)
    (w : Fin nx → ℝ) : varAlong s.chol w = Real.exp ε * varAlong L w := by
  simp only [updateWith, Option.bind_eq_bind, Option.bind_eq_some_iff, Option.pure_def, Option.some.injEq] at hs
  obtain ⟨o, ho⟩ : ∃ o, o = collectWith (inflatedTriang qr ε) (frozen nx t).H (frozen nx t).d (frozen nx t).cholR (frozen nx t).y :=
    ⟨_, rfl⟩
  rw [← ho] at hs
  have hH : o.H = 0 := by
    rw [ho]; ext i j; simp [collectWith, collectRest, frozen, isNan]
  obtain ⟨T, hT⟩ : ∃ T, T = (inflatedTriang qr ε).sq (block (o.H * L) o.cholR L 0) (Nat.add_comm _ _).le := ⟨_, rfl⟩
  rw [← hT] at hs
  have hl : IsLower T := by
    intro i j hij
    rw [hT, inflatedTriang_sq, Matrix.smul_apply, triaSq_lower qr _ _ i j hij, smul_zero]
  have hvar : ∀ a w, varAlong T (Fin.append a w) = Real.exp ε * (varAlong L w + varAlong o.cholR a) := by
    intro a w
    rw [hT, inflatedTriang_var, varAlong_joint, hH, Matrix.vecMul_zero, zero_add]
  obtain ⟨v, hv, -, -, rfl⟩ := hs
  have hdiag : ∀ i, topLeft T i i ≠ 0 := by
    by_contra hcon
    rw [solveLowerVec, if_neg hcon] at hv
    cases hv
  have hId := (isLower_topLeft hl).det_ne_zero_iff.mpr hdiag
  have hb := eq_block_of_lower hl
  have hp := Real.exp_pos ε
  refine le_antisymm ?_ ?_
  · have h1 := varAlong_bottom_le (I := topLeft T) (G := bottomLeft T) (C := bottomRight T) 0 w
    rw [← hb, hvar] at h1
    have : varAlong o.cholR 0 = 0 := by rw [varAlong, Matrix.zero_vecMul, dotProduct_zero]
    rwa [this, add_zero] at h1
  · have h1 := varAlong_resid (G := bottomLeft T) (C := bottomRight T) hId w
    rw [← hb, hvar] at h1
    simp only
    rw [← h1]
    have := varAlong_nonneg o.cholR (-(w ᵥ* (bottomLeft T * (topLeft T)⁻¹)))
    nlinarith

/-- **C132** (the growth is real). There is an inexact triangularisation for which the variances of a state that neither moves nor
is observed grow by exactly `exp (2 t ε)`: the factor of `online_rounding` cannot be improved. -/
theorem online_rounding_attained (qr : QR) {ε : ℝ} (hε : 0 ≤ ε) (m₀ : Fin nx → ℝ) (L₀ : Matrix (Fin nx) (Fin nx) ℝ) (t : ℕ) :
    (inflatedTriang qr ε).Accurate ε ∧ ∃ s s', onlineWith (exactTriang qr) (frozen nx) m₀ L₀ t = some s ∧
      onlineWith (inflatedTriang qr ε) (frozen nx) m₀ L₀ t = some s' ∧
      ∀ w, varAlong s.chol w = varAlong L₀ w ∧ varAlong s'.chol w = Real.exp (2 * t * ε) * varAlong L₀ w := by
  refine ⟨inflatedTriang_accurate qr hε, ?_⟩
  have key : ∀ (ε : ℝ), 0 ≤ ε → ∀ t : ℕ, ∃ s', onlineWith (inflatedTriang qr ε) (frozen nx) m₀ L₀ t = some s' ∧
      ∀ w, varAlong s'.chol w = Real.exp (2 * t * ε) * varAlong L₀ w := by
    intro ε hε t
    induction t with
    | zero => exact ⟨_, rfl, fun w => by simp⟩
    | succ t ih =>
      obtain ⟨r, hr, hw⟩ := ih
      obtain ⟨s, hs⟩ := online_exact_exists (frozen nx) m₀ L₀ qr frozen_R (t + 1)
      obtain ⟨s', hs', -⟩ := online_rounding (frozen nx) m₀ L₀ qr hε (inflatedTriang_accurate qr hε) (t + 1) s hs
      refine ⟨s', hs', fun w => ?_⟩
      rw [onlineWith, hr] at hs'
      rw [frozen_update qr ε _ _ _ t s' hs' w]
      have e1 : varAlong (predictWith (inflatedTriang qr ε) r.mean r.chol (frozen nx t).F (frozen nx t).c (frozen nx t).cholQ).2 w =
          Real.exp ε * varAlong r.chol w := by
        rw [predictWith, inflatedTriang_var, varAlong_hcat]
        have : varAlong (frozen nx t).cholQ w = 0 := by simp [varAlong, frozen]
        rw [this, add_zero, varAlong_mul]
        simp [frozen]
      rw [e1, hw, ← mul_assoc, ← mul_assoc, ← Real.exp_add, ← Real.exp_add]
      congr 2
      push_cast; ring
  obtain ⟨s', hs', hw'⟩ := key ε hε t
  obtain ⟨s, hs, hw⟩ := key 0 le_rfl t
  have e : inflatedTriang qr 0 = exactTriang qr := by
    simp [inflatedTriang, exactTriang]
  rw [e] at hs
  exact ⟨s, s', hs, hs', fun w => ⟨by rw [hw]; simp, hw' w⟩⟩

end Cuthbert.Kalman
