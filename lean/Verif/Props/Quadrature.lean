import Verif.Model.Quadrature
import Verif.Spec.Gaussian
import Verif.Lemmas.Linalg
import Verif.Lemmas.Gaussian
import Mathlib.Algebra.MvPolynomial.Degrees
import Mathlib.Algebra.MvPolynomial.Monad
import Mathlib.MeasureTheory.Integral.Pi
import Mathlib.Topology.Algebra.MvPolynomial

/-!
# Quadrature (C40, C42, C68)
-/

namespace Cuthbert.Quadrature
open Matrix MeasureTheory ProbabilityTheory

noncomputable section

variable {n nx ny N : ℕ}

/-! ## Sums over the points of the rules -/

theorem mean_apply (s : SigmaPoints N n) (i : Fin n) : s.mean i = ∑ k, s.wm k * s.points k i := rfl

theorem cov_apply (wc : Fin N → ℝ) (x : Matrix (Fin N) (Fin nx) ℝ) (xm : Fin nx → ℝ)
    (y : Matrix (Fin N) (Fin ny) ℝ) (ym : Fin ny → ℝ) (i : Fin nx) (j : Fin ny) :
    cov wc x xm y ym i j = ∑ k, wc k * ((x k i - xm i) * (y k j - ym j)) := by
  simp only [cov]
  rw [Matrix.mul_apply]
  refine Finset.sum_congr rfl fun k _ => ?_
  simp only [Matrix.of_apply]
  ring

/-- Points and weights that reproduce the first two moments of the standard normal law. -/
structure IsStd (xi : Matrix (Fin N) (Fin n) ℝ) (wm wc : Fin N → ℝ) : Prop where
  sum : ∑ k, wm k = 1
  mean : ∀ i, ∑ k, wm k * xi k i = 0
  cov : ∀ i j, ∑ k, wc k * (xi k i * xi k j) = (1 : Matrix (Fin n) (Fin n) ℝ) i j

theorem sigmaPointsOf_points (m : Fin n → ℝ) (L : Matrix (Fin n) (Fin n) ℝ) (xi : Matrix (Fin N) (Fin n) ℝ)
    (wm wc : Fin N → ℝ) (k : Fin N) (i : Fin n) :
    (sigmaPointsOf m L xi wm wc).points k i = m i + ∑ l, L i l * xi k l := by
  simp only [sigmaPointsOf, Matrix.of_apply, Matrix.transpose_apply]
  rw [Matrix.mul_apply]
  rfl

theorem IsStd.moments {xi : Matrix (Fin N) (Fin n) ℝ} {wm wc : Fin N → ℝ} (h : IsStd xi wm wc)
    (m : Fin n → ℝ) (L : Matrix (Fin n) (Fin n) ℝ) (s : SigmaPoints N n) (hs : s = sigmaPointsOf m L xi wm wc) :
    ∑ k, s.wm k = 1 ∧ s.mean = m ∧ s.covariance s = L * Lᵀ := by
  have hwm : s.wm = wm := by rw [hs]; rfl
  have hwc : s.wc = wc := by rw [hs]; rfl
  have hp : ∀ k i, s.points k i = m i + ∑ l, L i l * xi k l := fun k i => by
    rw [hs, sigmaPointsOf_points]
  have hm : s.mean = m := by
    funext i
    rw [mean_apply]
    simp only [hwm, hp, mul_add, Finset.sum_add_distrib, Finset.mul_sum]
    rw [← Finset.sum_mul, h.sum, one_mul, Finset.sum_comm]
    have : ∀ l, ∑ k, wm k * (L i l * xi k l) = 0 := fun l => by
      have : ∀ k, wm k * (L i l * xi k l) = L i l * (wm k * xi k l) := fun k => by ring
      simp only [this, ← Finset.mul_sum, h.mean, mul_zero]
    simp only [this, Finset.sum_const_zero, add_zero]
  refine ⟨by rw [hwm, h.sum], hm, ?_⟩
  ext i j
  rw [SigmaPoints.covariance, cov_apply, hm]
  simp only [hwc, hp, add_sub_cancel_left]
  rw [Matrix.mul_apply]
  have : ∀ k, wc k * ((∑ l, L i l * xi k l) * ∑ l, L j l * xi k l) =
      ∑ l, ∑ l', L i l * L j l' * (wc k * (xi k l * xi k l')) := fun k => by
    rw [Finset.sum_mul_sum, Finset.mul_sum]
    refine Finset.sum_congr rfl fun l _ => ?_
    rw [Finset.mul_sum]
    exact Finset.sum_congr rfl fun l' _ => by ring
  simp only [this]
  rw [Finset.sum_comm]
  refine Finset.sum_congr rfl fun l _ => ?_
  rw [Finset.sum_comm]
  have h2 : ∀ l', ∑ k, L i l * L j l' * (wc k * (xi k l * xi k l')) =
      if l = l' then L i l * L j l' else 0 := fun l' => by
    rw [← Finset.mul_sum, h.cov, Matrix.one_apply]
    split_ifs <;> ring
  simp only [h2, Finset.sum_ite_eq, Finset.mem_univ, if_true, Matrix.transpose_apply]

@[simp] theorem vcat_left {a b : ℕ} (A : Matrix (Fin a) (Fin n) ℝ) (B : Matrix (Fin b) (Fin n) ℝ) (k : Fin a)
    (i : Fin n) : vcat A B (Fin.castAdd b k) i = A k i := by
  simp only [vcat, Matrix.of_apply, Fin.append_left]

@[simp] theorem vcat_right {a b : ℕ} (A : Matrix (Fin a) (Fin n) ℝ) (B : Matrix (Fin b) (Fin n) ℝ) (k : Fin b)
    (i : Fin n) : vcat A B (Fin.natAdd a k) i = B k i := by
  simp only [vcat, Matrix.of_apply, Fin.append_right]

/-- The points `± c e_i`. -/
def crossPoints (n : ℕ) (c : ℝ) : Matrix (Fin (n + n)) (Fin n) ℝ := Matrix.of fun k i => vcat 1 (-1) k i * c

theorem crossPoints_left (c : ℝ) (k i : Fin n) :
    crossPoints n c (Fin.castAdd n k) i = (1 : Matrix (Fin n) (Fin n) ℝ) k i * c := by
  simp only [crossPoints, Matrix.of_apply, vcat_left]

theorem crossPoints_right (c : ℝ) (k i : Fin n) :
    crossPoints n c (Fin.natAdd n k) i = -((1 : Matrix (Fin n) (Fin n) ℝ) k i * c) := by
  simp only [crossPoints, Matrix.of_apply, vcat_right, Matrix.neg_apply, neg_mul]

theorem cubature_eq (n : ℕ) (m : Fin n → ℝ) (L : Matrix (Fin n) (Fin n) ℝ) :
    (cubature n).getSigmaPoints m L =
      sigmaPointsOf m L (crossPoints n (Real.sqrt n)) (fun _ => 1 / (2 * n)) fun _ => 1 / (2 * n) := rfl

/-- Sums over the cross. -/
theorem sum_cross {M : Type*} [AddCommMonoid M] (f : Fin (n + n) → M) :
    ∑ k, f k = ∑ k : Fin n, (f (Fin.castAdd n k) + f (Fin.natAdd n k)) := by
  rw [Fin.sum_univ_add, Finset.sum_add_distrib]

theorem cubature_isStd (hn : 0 < n) :
    IsStd (crossPoints n (Real.sqrt n)) (fun _ => 1 / (2 * n)) fun _ => 1 / (2 * n) := by
  have hn' : (n : ℝ) ≠ 0 := Nat.cast_ne_zero.mpr hn.ne'
  refine ⟨?_, fun i => ?_, fun i j => ?_⟩
  · rw [Finset.sum_const, Finset.card_univ, Fintype.card_fin, nsmul_eq_mul]
    push_cast
    field_simp
    ring
  · rw [sum_cross]
    simp only [crossPoints_left, crossPoints_right]
    simp
  · rw [sum_cross]
    simp only [crossPoints_left, crossPoints_right, Matrix.one_apply]
    have h2 : Real.sqrt n * Real.sqrt n = n := Real.mul_self_sqrt (Nat.cast_nonneg n)
    have : ∀ k : Fin n, 1 / (2 * (n : ℝ)) * ((if k = i then 1 else 0) * Real.sqrt n * ((if k = j then 1 else 0) * Real.sqrt n)) +
        1 / (2 * (n : ℝ)) * (-((if k = i then 1 else 0) * Real.sqrt n) * -((if k = j then 1 else 0) * Real.sqrt n)) =
        if k = i then (if k = j then 1 else 0) else 0 := fun k => by
      have : ∀ a b : ℝ, 1 / (2 * (n : ℝ)) * (a * Real.sqrt n * (b * Real.sqrt n)) +
          1 / (2 * (n : ℝ)) * (-(a * Real.sqrt n) * -(b * Real.sqrt n)) = a * b := fun a b => by
        have : a * Real.sqrt n * (b * Real.sqrt n) = a * b * n := by
          rw [mul_mul_mul_comm, h2]
        rw [neg_mul_neg, this]
        field_simp
        ring
      rw [this]
      split_ifs <;> simp
    simp only [this, Finset.sum_ite_eq', Finset.mem_univ, if_true]

/-- The scaled unscented points. -/
def unscentedXi (n : ℕ) (c : ℝ) : Matrix (Fin (1 + (n + n))) (Fin n) ℝ :=
  vcat 0 (crossPoints n c)

theorem unscented_eq {alpha beta : ℝ} {kappa : Option ℝ} {r : Rule n (1 + (n + n))}
    (hr : unscented n alpha beta kappa = some r) (m : Fin n → ℝ) (L : Matrix (Fin n) (Fin n) ℝ) :
    ∃ lam, lam = unscentedLambda n alpha (kappa.getD (3 + n)) ∧ 0 < n + lam ∧
      r.getSigmaPoints m L = sigmaPointsOf m L (unscentedXi n (Real.sqrt (n + lam)))
        (Fin.append (fun _ => lam / (n + lam)) fun _ => 1 / (2 * (n + lam)))
        (Fin.append (fun _ => lam / (n + lam) + (1 - alpha ^ 2 + beta)) fun _ => 1 / (2 * (n + lam))) := by
  unfold unscented at hr
  obtain ⟨lam, hlam⟩ : ∃ lam, lam = unscentedLambda n alpha (kappa.getD (3 + n)) := ⟨_, rfl⟩
  simp only [← hlam] at hr
  split_ifs at hr with h
  refine ⟨lam, hlam, h, ?_⟩
  rw [Option.some.injEq] at hr
  subst hr
  have : ∀ (a b : SigmaPoints (1 + (n + n)) n), a.wm = b.wm → a.wc = b.wc → (∀ k i, a.points k i = b.points k i) →
      a = b := by
    rintro ⟨p, _, _⟩ ⟨q, _, _⟩ rfl rfl h
    have : p = q := by ext k i; exact h k i
    rw [this]
  refine this _ _ rfl rfl fun k i => ?_
  rw [sigmaPointsOf_points]
  simp only [Matrix.of_apply]
  congr 1
  refine Fin.addCases (fun k => ?_) (fun k => ?_) k
  · simp only [unscentedXi, vcat_left, Matrix.zero_apply, mul_zero, Finset.sum_const_zero]
  · simp only [unscentedXi, vcat_right]
    refine Fin.addCases (fun k => ?_) (fun k => ?_) k
    · rw [vcat_left]
      simp only [crossPoints_left, Matrix.one_apply, Matrix.transpose_apply, Matrix.smul_apply, smul_eq_mul,
        ite_mul, mul_ite, one_mul, zero_mul, mul_zero, Finset.sum_ite_eq, Finset.mem_univ, if_true]
      ring
    · rw [vcat_right]
      simp only [crossPoints_right, Matrix.one_apply, Matrix.transpose_apply, Matrix.smul_apply, smul_eq_mul,
        ite_mul, mul_ite, one_mul, zero_mul, mul_zero, Finset.sum_ite_eq, Finset.mem_univ, if_true,
        Matrix.neg_apply, mul_neg, Finset.sum_neg_distrib]
      ring

theorem unscented_isStd {lam : ℝ} (h : 0 < n + lam) (c : ℝ) :
    IsStd (unscentedXi n (Real.sqrt (n + lam)))
        (Fin.append (fun _ => lam / (n + lam)) fun _ => 1 / (2 * (n + lam)))
        (Fin.append (fun _ => c) fun _ => 1 / (2 * (n + lam))) := by
  have hn : (n : ℝ) + lam ≠ 0 := h.ne'
  refine ⟨?_, fun i => ?_, fun i j => ?_⟩
  · rw [Fin.sum_univ_add]
    simp only [Fin.append_left, Fin.append_right, Finset.sum_const, Finset.card_univ, Fintype.card_fin, nsmul_eq_mul]
    push_cast
    field_simp
    ring
  · rw [Fin.sum_univ_add, sum_cross]
    simp only [Fin.append_left, Fin.append_right, unscentedXi, vcat_left, vcat_right, Matrix.zero_apply, crossPoints_left, crossPoints_right]
    simp
  · rw [Fin.sum_univ_add, sum_cross]
    simp only [Fin.append_left, Fin.append_right, unscentedXi, vcat_left, vcat_right, Matrix.zero_apply, crossPoints_left, crossPoints_right,
      Matrix.one_apply, mul_zero, Finset.sum_const_zero, zero_add]
    have h2 : Real.sqrt (n + lam) * Real.sqrt (n + lam) = n + lam := Real.mul_self_sqrt h.le
    obtain ⟨q, hq⟩ : ∃ q, q = Real.sqrt (n + lam) := ⟨_, rfl⟩
    rw [← hq] at h2 ⊢
    have : ∀ a b : ℝ, 1 / (2 * (n + lam)) * (a * q * (b * q)) + 1 / (2 * (n + lam)) * (-(a * q) * -(b * q)) =
        a * b := fun a b => by
      have : a * q * (b * q) = a * b * (n + lam) := by rw [← h2]; ring
      rw [neg_mul_neg, this]
      field_simp
      ring
    simp only [this]
    simp [eq_comm]

/-! ## Moments -/

/-- The moments of the standard normal law. -/
def stdMoment (d : ℕ) : ℝ := ∫ t, t ^ d ∂gaussianReal 0 1

theorem integrable_pow_gaussian (d : ℕ) : Integrable (fun t : ℝ => t ^ d) (gaussianReal 0 1) := by
  have h : MemLp (fun x : ℝ => x) d (gaussianReal 0 1) := memLp_id_gaussianReal' _ (ENNReal.natCast_ne_top d)
  have h2 := MemLp.integrable_norm_pow' h
  refine h2.mono (by fun_prop : Measurable fun t : ℝ => t ^ d).aestronglyMeasurable (ae_of_all _ fun t => ?_)
  rw [norm_pow, norm_pow, norm_norm]

theorem stdMoment_zero : stdMoment 0 = 1 := by simp [stdMoment]

theorem stdMoment_odd {d : ℕ} (hd : Odd d) : stdMoment d = 0 := by
  have h : ∫ t, t ^ d ∂gaussianReal 0 1 = ∫ t, (-t) ^ d ∂gaussianReal 0 1 := by
    have e : gaussianReal 0 1 = (gaussianReal 0 1).map fun x => -x := by
      rw [gaussianReal_map_neg, neg_zero]
    conv_lhs => rw [e]
    rw [integral_map measurable_neg.aemeasurable]
    exact (by fun_prop : Measurable fun t : ℝ => t ^ d).aestronglyMeasurable
  simp only [hd.neg_pow, integral_neg] at h
  unfold stdMoment
  linarith

theorem stdMoment_two : stdMoment 2 = 1 := by
  have h := variance_id_gaussianReal (μ := 0) (v := 1)
  rw [variance_eq_integral measurable_id.aemeasurable] at h
  simp only [id, integral_id_gaussianReal, sub_zero, NNReal.coe_one] at h
  exact h

/-- Points and weights for which the moments up to total degree `D` are those of the standard normal law. -/
def MonomialExact (D : ℕ) (xi : Matrix (Fin N) (Fin n) ℝ) (w : Fin N → ℝ) : Prop :=
  ∀ s : Fin n → ℕ, ∑ i, s i ≤ D → ∑ k, w k * ∏ i, xi k i ^ s i = ∏ i, stdMoment (s i)

theorem prod_pow_single (v : Fin n → ℝ) (i : Fin n) : ∏ l, v l ^ (Pi.single i 1 : Fin n → ℕ) l = v i := by
  rw [Fintype.prod_eq_single i fun l hl => by rw [Pi.single_eq_of_ne hl, pow_zero], Pi.single_eq_same, pow_one]

theorem prod_pow_single_add (v : Fin n → ℝ) (i j : Fin n) :
    ∏ l, v l ^ ((Pi.single i 1 + Pi.single j 1 : Fin n → ℕ) l) = v i * v j := by
  simp only [Pi.add_apply, pow_add, Finset.prod_mul_distrib, prod_pow_single]

theorem sum_single (i : Fin n) : ∑ l, (Pi.single i 1 : Fin n → ℕ) l = 1 := by
  rw [Finset.sum_pi_single']; simp

theorem stdMoment_single (i : Fin n) : ∏ l, stdMoment ((Pi.single i 1 : Fin n → ℕ) l) = 0 :=
  Finset.prod_eq_zero (Finset.mem_univ i) (by rw [Pi.single_eq_same]; exact stdMoment_odd odd_one)

theorem stdMoment_single_add (i j : Fin n) :
    ∏ l, stdMoment ((Pi.single i 1 + Pi.single j 1 : Fin n → ℕ) l) = (1 : Matrix (Fin n) (Fin n) ℝ) i j := by
  rw [Matrix.one_apply]
  split_ifs with h
  · subst h
    refine Finset.prod_eq_one fun l _ => ?_
    by_cases hl : l = i
    · subst hl
      rw [Pi.add_apply, Pi.single_eq_same]
      exact stdMoment_two
    · rw [Pi.add_apply, Pi.single_eq_of_ne hl]
      exact stdMoment_zero
  · refine Finset.prod_eq_zero (Finset.mem_univ i) ?_
    rw [Pi.add_apply, Pi.single_eq_same, Pi.single_eq_of_ne h]
    exact stdMoment_odd odd_one

theorem MonomialExact.isStd {D : ℕ} (hD : 2 ≤ D) {xi : Matrix (Fin N) (Fin n) ℝ} {w : Fin N → ℝ}
    (h : MonomialExact D xi w) : IsStd xi w w := by
  refine ⟨?_, fun i => ?_, fun i j => ?_⟩
  · have := h 0 (by simp)
    simpa [stdMoment_zero] using this
  · have := h (Pi.single i 1) (by rw [sum_single]; omega)
    simp only [prod_pow_single, stdMoment_single] at this
    exact this
  · have := h (Pi.single i 1 + Pi.single j 1) (by
      simp only [Pi.add_apply, Finset.sum_add_distrib, sum_single]; omega)
    simp only [prod_pow_single_add, stdMoment_single_add] at this
    exact this

/-- A point set symmetric under reflection is exact up to degree 3 if it is up to degree 2. -/
theorem exact_three {xi : Matrix (Fin N) (Fin n) ℝ} {w wc : Fin N → ℝ} (h : IsStd xi w wc)
    (hc : ∀ i j, ∑ k, w k * (xi k i * xi k j) = (1 : Matrix (Fin n) (Fin n) ℝ) i j) (e : Equiv.Perm (Fin N))
    (hw : ∀ k, w (e k) = w k) (hx : ∀ k i, xi (e k) i = -xi k i) : MonomialExact 3 xi w := by
  intro s hs
  obtain ⟨d, hd⟩ : ∃ d, d = ∑ i, s i := ⟨_, rfl⟩
  rw [← hd] at hs
  rcases Nat.even_or_odd d with hev | hodd
  · have : d = 0 ∨ d = 2 := by
      obtain ⟨r, hr⟩ := hev; omega
    rcases this with h0 | h2
    · have : ∀ i, s i = 0 := fun i => by
        have := Finset.single_le_sum (f := s) (fun _ _ => Nat.zero_le _) (Finset.mem_univ i)
        omega
      simp only [this, pow_zero, Finset.prod_const_one, mul_one, stdMoment_zero, h.sum]
    · obtain ⟨i, j, hij⟩ : ∃ i j, s = Pi.single i 1 + Pi.single j 1 := by
        have split : ∀ (c : ℕ) (s : Fin n → ℕ), ∑ l, s l = c + 1 → ∃ (i : Fin n) (s' : Fin n → ℕ), s = Pi.single i 1 + s' ∧ ∑ l, s' l = c := by
          intro c s hs
          obtain ⟨i, -, hi⟩ : ∃ i ∈ Finset.univ, s i ≠ 0 := by
            apply Finset.exists_ne_zero_of_sum_ne_zero
            omega
          have : s = Pi.single i 1 + (s - Pi.single i 1) := by
            funext l
            simp only [Pi.add_apply, Pi.sub_apply]
            by_cases hl : l = i
            · subst hl; rw [Pi.single_eq_same]; omega
            · rw [Pi.single_eq_of_ne hl]; omega
          refine ⟨i, _, this, ?_⟩
          have hsum := congrArg (fun s : Fin n → ℕ => ∑ l, s l) this
          simp only [Pi.add_apply, Finset.sum_add_distrib, sum_single] at hsum
          omega
        obtain ⟨i, s', h1, h1'⟩ := split 1 s (by omega)
        obtain ⟨j, s'', h3, h3'⟩ := split 0 s' h1'
        have : s'' = 0 := by
          funext l
          have := Finset.single_le_sum (f := s'') (fun _ _ => Nat.zero_le _) (Finset.mem_univ l)
          simp only [Pi.zero_apply]
          omega
        exact ⟨i, j, by rw [h1, h3, this, add_zero]⟩
      rw [hij]
      simp only [prod_pow_single_add, stdMoment_single_add, hc]
  · have hz : ∏ i, stdMoment (s i) = 0 := by
      obtain ⟨i, hi⟩ : ∃ i, Odd (s i) := by
        by_contra hne
        push Not at hne
        have : Even (∑ i, s i) := Finset.even_sum _ fun i _ => Nat.not_odd_iff_even.mp (hne i)
        rw [← hd] at this
        exact (Nat.not_even_iff_odd.mpr hodd) this
      exact Finset.prod_eq_zero (Finset.mem_univ i) (stdMoment_odd hi)
    have hsym : ∑ k, w k * ∏ i, xi k i ^ s i = ∑ k, w (e k) * ∏ i, xi (e k) i ^ s i :=
      (Equiv.sum_comp e fun k => w k * ∏ i, xi k i ^ s i).symm
    have hneg : ∀ k, w (e k) * ∏ i, xi (e k) i ^ s i = -(w k * ∏ i, xi k i ^ s i) := fun k => by
      simp only [hw, hx]
      have : ∀ i, (-xi k i) ^ s i = (-1) ^ s i * xi k i ^ s i := fun i => by
        rw [← mul_pow, neg_one_mul]
      simp only [this, Finset.prod_mul_distrib, Finset.prod_pow_eq_pow_sum, ← hd, hodd.neg_one_pow]
      ring
    simp only [hneg, Finset.sum_neg_distrib] at hsym
    rw [hz]
    linarith

/-- Swapping the two halves of the cross. -/
def crossSwap (n : ℕ) : Equiv.Perm (Fin (n + n)) :=
  finSumFinEquiv.symm.trans ((Equiv.sumComm _ _).trans finSumFinEquiv)

theorem crossSwap_left (k : Fin n) : crossSwap n (Fin.castAdd n k) = Fin.natAdd n k := by
  simp [crossSwap]

theorem crossSwap_right (k : Fin n) : crossSwap n (Fin.natAdd n k) = Fin.castAdd n k := by
  simp only [crossSwap, Equiv.trans_apply, finSumFinEquiv_symm_apply_natAdd, Equiv.sumComm_apply, Sum.swap_inr,
    finSumFinEquiv_apply_left]

theorem crossPoints_swap (c : ℝ) (k : Fin (n + n)) (i : Fin n) :
    crossPoints n c (crossSwap n k) i = -crossPoints n c k i := by
  refine Fin.addCases (fun k => ?_) (fun k => ?_) k
  · rw [crossSwap_left, crossPoints_left, crossPoints_right]
  · rw [crossSwap_right, crossPoints_left, crossPoints_right, neg_neg]

theorem cubature_exact (hn : 0 < n) :
    MonomialExact 3 (crossPoints n (Real.sqrt n)) fun _ => 1 / (2 * n) :=
  exact_three (cubature_isStd hn) (cubature_isStd hn).cov (crossSwap n) (fun _ => rfl) (crossPoints_swap _)

theorem unscented_exact {lam : ℝ} (h : 0 < n + lam) :
    MonomialExact 3 (unscentedXi n (Real.sqrt (n + lam)))
        (Fin.append (fun _ => lam / (n + lam)) fun _ => 1 / (2 * (n + lam))) := by
  let e : Equiv.Perm (Fin (1 + (n + n))) :=
    finSumFinEquiv.symm.trans ((Equiv.sumCongr (Equiv.refl _) (crossSwap n)).trans finSumFinEquiv)
  have e1 : ∀ k : Fin 1, e (Fin.castAdd _ k) = Fin.castAdd _ k := fun k => by simp [e]
  have e2 : ∀ k : Fin (n + n), e (Fin.natAdd 1 k) = Fin.natAdd 1 (crossSwap n k) := fun k => by simp [e]
  refine exact_three (unscented_isStd h 0) (unscented_isStd h (lam / (n + lam))).cov e (fun k => ?_) fun k i => ?_
  · refine Fin.addCases (fun k => ?_) (fun k => ?_) k
    · rw [e1]
    · rw [e2, Fin.append_right, Fin.append_right]
  · refine Fin.addCases (fun k => ?_) (fun k => ?_) k
    · simp only [e1, unscentedXi, vcat_left, Matrix.zero_apply, neg_zero]
    · simp only [e2, unscentedXi, vcat_right, crossPoints_swap]

/-- Sums over the product grid. -/
theorem sum_product {order : ℕ} (w x : Fin order → ℝ) (f : Fin n → ℝ → ℝ) :
    ∑ k, (∏ i, productRow w n k i) * ∏ i, f i (productRow x n k i) = ∏ i, ∑ j, w j * f i (x j) := by
  rw [Finset.prod_univ_sum, Fintype.piFinset_univ]
  refine Fintype.sum_equiv (finFunctionFinEquiv.symm.trans (Equiv.arrowCongr Fin.revPerm (Equiv.refl _))) _ _
    fun k => ?_
  rw [← Finset.prod_mul_distrib]
  rfl

theorem gaussHermite_exact {order : ℕ} (h : Hermegauss order) (ho : 0 < order) :
    MonomialExact (2 * order - 1) (Matrix.of (productRow h.x n))
      fun k => (∏ i, productRow h.w n k i) / Real.sqrt (2 * Real.pi) ^ n := by
  intro s hs
  have hpos : Real.sqrt (2 * Real.pi) ≠ 0 := by positivity
  have h1 : ∀ k, (∏ i, productRow h.w n k i) / Real.sqrt (2 * Real.pi) ^ n *
      ∏ i, (Matrix.of (productRow h.x n) : Matrix _ _ ℝ) k i ^ s i =
      ((∏ i, productRow h.w n k i) * ∏ i, productRow h.x n k i ^ s i) / Real.sqrt (2 * Real.pi) ^ n := fun k => by
    simp only [Matrix.of_apply]; ring
  simp only [h1]
  rw [← Finset.sum_div, sum_product h.w h.x fun i t => t ^ s i]
  have h2 : ∀ i, ∑ j, h.w j * h.x j ^ s i = Real.sqrt (2 * Real.pi) * stdMoment (s i) := fun i => by
    refine h.exact _ ?_
    have := Finset.single_le_sum (f := s) (fun _ _ => Nat.zero_le _) (Finset.mem_univ i)
    omega
  simp only [h2, Finset.prod_mul_distrib, Finset.prod_const, Finset.card_univ, Fintype.card_fin]
  field_simp

/-! ## C40 -/

/-- **C40** (cubature). -/
theorem cubature_moments (hn : 0 < n) (m : Fin n → ℝ) (L : Matrix (Fin n) (Fin n) ℝ) :
    ∑ k, ((cubature n).getSigmaPoints m L).wm k = 1 ∧ ((cubature n).getSigmaPoints m L).mean = m ∧
      ((cubature n).getSigmaPoints m L).covariance ((cubature n).getSigmaPoints m L) = L * Lᵀ :=
  (cubature_isStd hn).moments m L _ (cubature_eq n m L)

/-- **C40** (unscented). For all parameters with `n + λ > 0`. The *covariance* weights do not sum to one, see
`unscented_wc_sum`. -/
theorem unscented_moments {alpha beta : ℝ} {kappa : Option ℝ} {r : Rule n (1 + (n + n))}
    (hr : unscented n alpha beta kappa = some r) (m : Fin n → ℝ) (L : Matrix (Fin n) (Fin n) ℝ) :
    ∑ k, (r.getSigmaPoints m L).wm k = 1 ∧ (r.getSigmaPoints m L).mean = m ∧
      (r.getSigmaPoints m L).covariance (r.getSigmaPoints m L) = L * Lᵀ := by
  obtain ⟨lam, -, h, he⟩ := unscented_eq hr m L
  exact (unscented_isStd h _).moments m L _ he

/-- **C40** (Gauss-Hermite), for order at least two. -/
theorem gaussHermite_moments {order : ℕ} (h : Hermegauss order) (ho : 2 ≤ order) (m : Fin n → ℝ)
    (L : Matrix (Fin n) (Fin n) ℝ) :
    ∑ k, ((gaussHermite h n).getSigmaPoints m L).wm k = 1 ∧ ((gaussHermite h n).getSigmaPoints m L).mean = m ∧
      ((gaussHermite h n).getSigmaPoints m L).covariance ((gaussHermite h n).getSigmaPoints m L) = L * Lᵀ :=
  ((gaussHermite_exact h (by omega)).isStd (by omega)).moments m L _ rfl

/-- **C40** (restriction). With order one all the points are at the mean and the covariance is zero. -/
theorem gaussHermite_order_one (h : Hermegauss 1) (m : Fin n → ℝ) (L : Matrix (Fin n) (Fin n) ℝ) :
    ((gaussHermite h n).getSigmaPoints m L).covariance ((gaussHermite h n).getSigmaPoints m L) = 0 := by
  have hpos : Real.sqrt (2 * Real.pi) ≠ 0 := by positivity
  have h0 := h.exact 0 (by omega)
  have h1 := h.exact 1 (by omega)
  have e0 : ∫ t, t ^ 0 ∂gaussianReal 0 1 = 1 := stdMoment_zero
  have e1 : ∫ t, t ^ 1 ∂gaussianReal 0 1 = 0 := stdMoment_odd odd_one
  rw [e0, Fin.sum_univ_one, pow_zero, mul_one, mul_one] at h0
  rw [e1, Fin.sum_univ_one, pow_one, mul_zero, h0] at h1
  have hx : h.x 0 = 0 := by
    rcases mul_eq_zero.mp h1 with h | h
    · exact absurd h hpos
    · exact h
  have hp : ∀ k i, ((gaussHermite h n).getSigmaPoints m L).points k i = m i := fun k i => by
    have : ∀ l, (Matrix.of (productRow h.x n) : Matrix _ _ ℝ) k l = 0 := fun l => by
      rw [Matrix.of_apply, productRow, Subsingleton.elim (finFunctionFinEquiv.symm k l.rev) 0, hx]
    rw [gaussHermite, sigmaPointsOf_points]
    simp only [this, mul_zero, Finset.sum_const_zero, add_zero]
  have hm : ((gaussHermite h n).getSigmaPoints m L).mean = m := by
    have hs := (gaussHermite_exact (n := n) h one_pos) 0 (by simp)
    simp only [Pi.zero_apply, pow_zero, Finset.prod_const_one, mul_one, stdMoment_zero] at hs
    funext i
    rw [mean_apply]
    simp only [hp]
    rw [← Finset.sum_mul]
    refine (congrArg (· * m i) hs).trans (one_mul _)
  ext i j
  rw [SigmaPoints.covariance, cov_apply, hm]
  simp only [hp, sub_self, mul_zero, Finset.sum_const_zero, Matrix.zero_apply]

/-- The parameters that `unscented.weights` accepts: `n + λ = α² (n + κ)` has to be positive. -/
theorem unscented_isSome_iff (n : ℕ) (alpha beta : ℝ) (kappa : Option ℝ) :
    (∃ r, unscented n alpha beta kappa = some r) ↔ 0 < alpha ^ 2 * (n + kappa.getD (3 + n)) := by
  have : (n : ℝ) + unscentedLambda n alpha (kappa.getD (3 + n)) = alpha ^ 2 * (n + kappa.getD (3 + n)) := by
    unfold unscentedLambda; ring
  unfold unscented
  simp only [this]
  split_ifs with h
  · exact ⟨fun _ => h, fun _ => ⟨_, rfl⟩⟩
  · simp [h]

/-- Non-vacuity: the default parameters in any dimension. -/
example (n : ℕ) : ∃ r, unscented n (1 / 2) 2 none = some r := by
  rw [unscented_isSome_iff]
  simp only [Option.getD_none]
  positivity

/-- The covariance weights of the unscented rule sum to `2 - α² + β`, that is to one only if `α² = 1 + β`. -/
theorem unscented_wc_sum {alpha beta : ℝ} {kappa : Option ℝ} {r : Rule n (1 + (n + n))}
    (hr : unscented n alpha beta kappa = some r) (m : Fin n → ℝ) (L : Matrix (Fin n) (Fin n) ℝ) :
    ∑ k, (r.getSigmaPoints m L).wc k = 2 - alpha ^ 2 + beta := by
  obtain ⟨lam, -, h, he⟩ := unscented_eq hr m L
  have hn : (n : ℝ) + lam ≠ 0 := h.ne'
  rw [he]
  change ∑ k, Fin.append (fun _ : Fin 1 => lam / (n + lam) + (1 - alpha ^ 2 + beta))
    (fun _ : Fin (n + n) => 1 / (2 * (n + lam))) k = _
  rw [Fin.sum_univ_add]
  simp only [Fin.append_left, Fin.append_right, Finset.sum_const, Finset.card_univ, Fintype.card_fin, nsmul_eq_mul]
  push_cast
  field_simp
  ring

/-- The contract can be met: the two-point rule. -/
theorem exists_hermegauss_two : Nonempty (Hermegauss 2) := by
  refine ⟨⟨![-1, 1], fun _ => Real.sqrt (2 * Real.pi) / 2, fun _ => by positivity, fun d hd => ?_⟩⟩
  change _ = Real.sqrt (2 * Real.pi) * stdMoment d
  rw [Fin.sum_univ_two]
  simp only [Matrix.cons_val_zero, Matrix.cons_val_one]
  have : d = 0 ∨ d = 1 ∨ d = 2 ∨ d = 3 := by omega
  rcases this with rfl | rfl | rfl | rfl
  · rw [stdMoment_zero]; ring
  · rw [stdMoment_odd odd_one]; ring
  · rw [stdMoment_two]; ring
  · rw [stdMoment_odd (by decide)]; ring

/-! ## C42 -/

/-- **C42**. With `alpha = 1`, `beta = 0`, `kappa = 0` the unscented rule is the cubature rule: the first point has
weight zero and the others are those of the cubature rule, with the same weights. -/
theorem cubature_is_unscented (hn : 0 < n) : ∃ r, unscented n 1 0 (some 0) = some r ∧
    ∀ m L, (r.getSigmaPoints m L).wm (Fin.castAdd (n + n) 0) = 0 ∧ (r.getSigmaPoints m L).wc (Fin.castAdd (n + n) 0) = 0 ∧
      ∀ k, (r.getSigmaPoints m L).wm (Fin.natAdd 1 k) = ((cubature n).getSigmaPoints m L).wm k ∧
        (r.getSigmaPoints m L).wc (Fin.natAdd 1 k) = ((cubature n).getSigmaPoints m L).wc k ∧
        (r.getSigmaPoints m L).points (Fin.natAdd 1 k) = ((cubature n).getSigmaPoints m L).points k := by
  obtain ⟨r, hr⟩ := (unscented_isSome_iff n 1 0 (some 0)).mpr (by simpa using hn)
  refine ⟨r, hr, fun m L => ?_⟩
  obtain ⟨lam, hlam, -, he⟩ := unscented_eq hr m L
  have h0 : lam = 0 := by rw [hlam, unscentedLambda]; simp
  subst h0
  rw [he, cubature_eq]
  refine ⟨?_, ?_, fun k => ⟨?_, ?_, ?_⟩⟩
  · simp only [sigmaPointsOf, Fin.append_left, zero_div]
  · simp only [sigmaPointsOf, Fin.append_left]; simp
  · simp only [sigmaPointsOf, Fin.append_right, add_zero]
  · simp only [sigmaPointsOf, Fin.append_right, add_zero]
  · funext i
    rw [sigmaPointsOf_points, sigmaPointsOf_points]
    simp only [unscentedXi, vcat_right, add_zero]

/-- **C42**. Hence every integrand has the same mean and every pair of integrands the same covariance. -/
theorem cubature_is_unscented_moments (hn : 0 < n) : ∃ r, unscented n 1 0 (some 0) = some r ∧
    ∀ m L (f : (Fin n → ℝ) → Fin nx → ℝ) (g : (Fin n → ℝ) → Fin ny → ℝ),
      (mapPoints (r.getSigmaPoints m L) f).mean = (mapPoints ((cubature n).getSigmaPoints m L) f).mean ∧
      (mapPoints (r.getSigmaPoints m L) f).covariance (mapPoints (r.getSigmaPoints m L) g) =
        (mapPoints ((cubature n).getSigmaPoints m L) f).covariance (mapPoints ((cubature n).getSigmaPoints m L) g) := by
  obtain ⟨r, hr, h⟩ := cubature_is_unscented hn
  have hmean : ∀ m L {p : ℕ} (f : (Fin n → ℝ) → Fin p → ℝ),
      (mapPoints (r.getSigmaPoints m L) f).mean = (mapPoints ((cubature n).getSigmaPoints m L) f).mean := by
    intro m L p f
    obtain ⟨h0, -, h2⟩ := h m L
    funext i
    rw [mean_apply, mean_apply, Fin.sum_univ_add]
    simp only [mapPoints, Matrix.of_apply, (h2 _).1, (h2 _).2.2, Fin.sum_univ_one]
    rw [show (0 : Fin 1) = 0 from rfl, h0, zero_mul, zero_add]
  refine ⟨r, hr, fun m L f g => ⟨hmean m L f, ?_⟩⟩
  obtain ⟨-, h1, h2⟩ := h m L
  ext i j
  rw [SigmaPoints.covariance, SigmaPoints.covariance, cov_apply, cov_apply, hmean, hmean, Fin.sum_univ_add]
  simp only [mapPoints, Matrix.of_apply, (h2 _).2.1, (h2 _).2.2, Fin.sum_univ_one]
  rw [h1, zero_mul, zero_add]

/-! ## C68 -/

open MvPolynomial in
/-- An affine change of variables. -/
def affineSubst (m : Fin n → ℝ) (L : Matrix (Fin n) (Fin nx) ℝ) (i : Fin n) : MvPolynomial (Fin nx) ℝ :=
  C (m i) + ∑ j, C (L i j) * X j

theorem eval_affineSubst (m : Fin n → ℝ) (L : Matrix (Fin n) (Fin nx) ℝ) (e : Fin nx → ℝ)
    (p : MvPolynomial (Fin n) ℝ) :
    MvPolynomial.eval e (MvPolynomial.bind₁ (affineSubst m L) p) = MvPolynomial.eval (m + L *ᵥ e) p := by
  rw [MvPolynomial.eval, MvPolynomial.eval₂Hom_bind₁]
  congr 2
  funext i
  simp [affineSubst, mulVec, dotProduct]

theorem totalDegree_affineSubst (m : Fin n → ℝ) (L : Matrix (Fin n) (Fin nx) ℝ) (p : MvPolynomial (Fin n) ℝ) :
    (MvPolynomial.bind₁ (affineSubst m L) p).totalDegree ≤ p.totalDegree := by
  have hi : ∀ i, (affineSubst m L i).totalDegree ≤ 1 := fun i => by
    refine (MvPolynomial.totalDegree_add _ _).trans (max_le (by simp) ?_)
    refine (MvPolynomial.totalDegree_finsetSum _ _).trans (Finset.sup_le fun j _ => ?_)
    refine (MvPolynomial.totalDegree_mul _ _).trans ?_
    rw [MvPolynomial.totalDegree_C, zero_add, MvPolynomial.totalDegree_X]
  conv_lhs => rw [p.as_sum, map_sum]
  refine (MvPolynomial.totalDegree_finsetSum _ _).trans (Finset.sup_le fun s hs => ?_)
  rw [MvPolynomial.bind₁_monomial]
  refine (MvPolynomial.totalDegree_mul _ _).trans ?_
  rw [MvPolynomial.totalDegree_C, zero_add]
  refine (MvPolynomial.totalDegree_finsetProd _ _).trans ?_
  refine le_trans ?_ (MvPolynomial.le_totalDegree hs)
  rw [Finsupp.sum]
  refine Finset.sum_le_sum fun i _ => ?_
  refine (MvPolynomial.totalDegree_pow _ _).trans ?_
  calc s i * _ ≤ s i * 1 := Nat.mul_le_mul_left _ (hi i)
    _ = s i := mul_one _

theorem integrable_monomial (s : Fin n → ℕ) : Integrable (fun e : Fin n → ℝ => ∏ i, e i ^ s i) (stdNormal (Fin n)) :=
  Integrable.fintype_prod fun i => integrable_pow_gaussian (s i)

theorem integral_monomial (s : Fin n → ℕ) :
    ∫ e, ∏ i, e i ^ s i ∂stdNormal (Fin n) = ∏ i, stdMoment (s i) :=
  integral_fintype_prod_eq_prod fun i (t : ℝ) => t ^ s i

theorem MonomialExact.polynomial {D : ℕ} {xi : Matrix (Fin N) (Fin nx) ℝ} {w : Fin N → ℝ}
    (h : MonomialExact D xi w) (m : Fin n → ℝ) (L : Matrix (Fin n) (Fin nx) ℝ) (p : MvPolynomial (Fin n) ℝ)
    (hp : p.totalDegree ≤ D) :
    ∑ k, w k * MvPolynomial.eval (m + L *ᵥ xi k) p = ∫ x, MvPolynomial.eval x p ∂gauss m L := by
  have hmeas : Measurable fun e : Fin nx → ℝ => m + L *ᵥ e := by
    refine measurable_pi_lambda _ fun i => ?_
    simp only [Pi.add_apply, mulVec, dotProduct]
    fun_prop
  have hcont : Continuous fun x : Fin n → ℝ => MvPolynomial.eval x p := MvPolynomial.continuous_eval p
  rw [gauss, integral_map hmeas.aemeasurable hcont.measurable.aestronglyMeasurable]
  obtain ⟨q, hq⟩ : ∃ q, q = MvPolynomial.bind₁ (affineSubst m L) p := ⟨_, rfl⟩
  have hqd : q.totalDegree ≤ D := hq ▸ (totalDegree_affineSubst m L p).trans hp
  simp only [← eval_affineSubst, ← hq]
  simp only [MvPolynomial.eval_eq']
  have hint : ∫ x, ∑ d ∈ q.support, MvPolynomial.coeff d q * ∏ i, x i ^ d i ∂stdNormal (Fin nx) =
      ∑ d ∈ q.support, MvPolynomial.coeff d q * ∏ i, stdMoment (d i) := by
    refine (integral_finsetSum q.support (f := fun (d : Fin nx →₀ ℕ) (x : Fin nx → ℝ) =>
      MvPolynomial.coeff d q * ∏ i, x i ^ d i) fun s _ => (integrable_monomial (⇑s)).const_mul _).trans ?_
    simp only [integral_const_mul, integral_monomial]
  rw [hint]
  simp only [Finset.mul_sum]
  rw [Finset.sum_comm]
  refine Finset.sum_congr rfl fun s hs => ?_
  have hsd : ∑ i, s i ≤ D := by
    refine le_trans ?_ hqd
    have := MvPolynomial.le_totalDegree hs
    rwa [Finsupp.sum_fintype _ _ fun _ => rfl] at this
  rw [← h s hsd, Finset.mul_sum]
  exact Finset.sum_congr rfl fun k _ => by ring

theorem sigmaPointsOf_row (m : Fin n → ℝ) (L : Matrix (Fin n) (Fin n) ℝ) (xi : Matrix (Fin N) (Fin n) ℝ)
    (wm wc : Fin N → ℝ) (k : Fin N) : (sigmaPointsOf m L xi wm wc).points k = m + L *ᵥ xi k := by
  funext i
  rw [sigmaPointsOf_points]
  rfl

/-- **C68** (cubature). Polynomials of degree up to three are integrated exactly. -/
theorem cubature_polynomial (hn : 0 < n) (m : Fin n → ℝ) (L : Matrix (Fin n) (Fin n) ℝ)
    (p : MvPolynomial (Fin n) ℝ) (hp : p.totalDegree ≤ 3) :
    ∑ k, ((cubature n).getSigmaPoints m L).wm k *
      MvPolynomial.eval (((cubature n).getSigmaPoints m L).points k) p = ∫ x, MvPolynomial.eval x p ∂gauss m L := by
  rw [← (cubature_exact hn).polynomial m L p hp, cubature_eq]
  simp only [sigmaPointsOf_row]
  rfl

/-- **C68** (unscented). The same, for all parameters. -/
theorem unscented_polynomial {alpha beta : ℝ} {kappa : Option ℝ} {r : Rule n (1 + (n + n))}
    (hr : unscented n alpha beta kappa = some r) (m : Fin n → ℝ) (L : Matrix (Fin n) (Fin n) ℝ)
    (p : MvPolynomial (Fin n) ℝ) (hp : p.totalDegree ≤ 3) :
    ∑ k, (r.getSigmaPoints m L).wm k * MvPolynomial.eval ((r.getSigmaPoints m L).points k) p =
      ∫ x, MvPolynomial.eval x p ∂gauss m L := by
  obtain ⟨lam, -, h, he⟩ := unscented_eq hr m L
  rw [← (unscented_exact h).polynomial m L p hp, he]
  simp only [sigmaPointsOf_row]
  rfl

/-- **C68** (Gauss-Hermite). Polynomials of degree up to `2 * order - 1` are integrated exactly. -/
theorem gaussHermite_polynomial {order : ℕ} (h : Hermegauss order) (ho : 0 < order) (m : Fin n → ℝ)
    (L : Matrix (Fin n) (Fin n) ℝ) (p : MvPolynomial (Fin n) ℝ) (hp : p.totalDegree ≤ 2 * order - 1) :
    ∑ k, ((gaussHermite h n).getSigmaPoints m L).wm k *
      MvPolynomial.eval (((gaussHermite h n).getSigmaPoints m L).points k) p =
      ∫ x, MvPolynomial.eval x p ∂gauss m L := by
  rw [← (gaussHermite_exact h ho).polynomial m L p hp]
  simp only [gaussHermite, sigmaPointsOf_row]
  rfl

/-- Non-vacuity: a mixed cubic. -/
example : (MvPolynomial.X 0 * MvPolynomial.X 1 ^ 2 : MvPolynomial (Fin 2) ℝ).totalDegree ≤ 3 := by
  refine (MvPolynomial.totalDegree_mul _ _).trans ?_
  have := MvPolynomial.totalDegree_pow (MvPolynomial.X 1 : MvPolynomial (Fin 2) ℝ) 2
  rw [MvPolynomial.totalDegree_X] at this ⊢
  omega

end

end Cuthbert.Quadrature
