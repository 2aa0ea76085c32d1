import Verif.Props.RoundedDiscrete

/-!
# C130: rounding errors of the discrete smoother
-/

namespace Cuthbert.Discrete
open Cuthbert Fl Spec

variable {n : ℕ} {Inp K : Type*} {M : HMM (Fin (n + 1))} {getInit : Inp → Fin (n + 1) → Fl}
  {getTrans : Inp → Fin (n + 1) → Fin (n + 1) → Fl} {getObs : Inp → Fin (n + 1) → Fl} {inputs : List Inp}
  {A : Arith} {u B : ℝ}

/-- The matrix `a` approximates `H` with relative error `ε`. -/
def MatNear (ε : ℝ) (H : Matrix (Fin (n + 1)) (Fin (n + 1)) ℝ) (a : Fin (n + 1) → Fin (n + 1) → Fl) : Prop :=
  ∃ h : Fin (n + 1) → Fin (n + 1) → ℝ, (∀ i j, a i j = fin (h i j)) ∧ ∀ i j, Near ε (H i j) (h i j)

/-- `smoothing_operator` multiplies matrices. -/
theorem smoothingOperatorWith_near (hA : A.Accurate u B) {a b : Fin (n + 1) → Fin (n + 1) → Fl}
    {G H : Matrix (Fin (n + 1)) (Fin (n + 1)) ℝ} {ε ε' : ℝ} (hG : ∀ i j, 0 ≤ G i j) (hH : ∀ i j, 0 ≤ H i j)
    (ha : MatNear ε G a) (hb : MatNear ε' H b) :
    MatNear (ε + ε' + (n + 2) * u) (G * H) (smoothingOperatorWith A b a) := by
  obtain ⟨g, hg, hgn⟩ := ha
  obtain ⟨h, hh, hhn⟩ := hb
  have hM : ∀ i j k, ∃ x, A.mul (fin (g i j)) (fin (h j k)) = fin x ∧ Near u (g i j * h j k) x :=
    fun i j k => hA.mul _ _ ((hgn i j).nonneg (hG i j)) ((hhn j k).nonneg (hH j k))
  choose x hx hxn using hM
  have hgh : ∀ i j k, 0 ≤ g i j * h j k := fun i j k => mul_nonneg ((hgn i j).nonneg (hG i j)) ((hhn j k).nonneg (hH j k))
  have hS : ∀ i k, ∃ y, (A.sum fun j => fin (x i j k)) = fin y ∧ Near ((n + 1 : ℕ) * u) (∑ j, x i j k) y :=
    fun i k => hA.sum _ fun j => (hxn i j k).nonneg (hgh i j k)
  choose y hy hyn using hS
  refine ⟨y, fun i k => ?_, fun i k => ?_⟩
  · simp only [smoothingOperatorWith, hg, hh, hx, hy]
  · rw [Matrix.mul_apply]
    have h1 : Near (ε + ε') (∑ j, G i j * H j k) (∑ j, g i j * h j k) :=
      Near.sum fun j _ => (hgn i j).mul (hhn j k) (hG i j) (hH j k)
    refine ((h1.trans (Near.sum fun j _ => hxn i j k)).trans (hyn i k)).mono
      (Finset.sum_nonneg fun j _ => mul_nonneg (hG i j) (hH j k)) (le_of_eq ?_)
    push_cast
    ring

/-- `get_reverse_kernel`. -/
theorem getReverseKernelWith_near (hA : A.Accurate u B) {dist : Fin (n + 1) → Fl}
    {trans : Fin (n + 1) → Fin (n + 1) → Fl} {q d : Fin (n + 1) → ℝ} {p : Fin (n + 1) → Fin (n + 1) → ℝ} {ε : ℝ}
    (hd : ∀ i, dist i = fin (d i)) (hdn : ∀ i, Near ε (q i) (d i)) (hq : ∀ i, 0 ≤ q i)
    (ht : ∀ i j, trans i j = fin (p i j)) (hp : ∀ i j, 0 ≤ p i j) (hpos : ∀ j, 0 < ∑ i, p i j * q i) :
    MatNear (2 * ε + (n + 4) * u) (fun j i => p i j * q i / ∑ i, p i j * q i) (getReverseKernelWith A dist trans) := by
  have hd0 : ∀ i, 0 ≤ d i := fun i => (hdn i).nonneg (hq i)
  have hM : ∀ i j, ∃ c, A.mul (fin (p i j)) (fin (d i)) = fin c ∧ Near u (p i j * d i) c :=
    fun i j => hA.mul _ _ (hp i j) (hd0 i)
  choose c hc hcn using hM
  have hcn' : ∀ i j, Near (ε + u) (p i j * q i) (c i j) := fun i j => ((hdn i).const_mul (hp i j)).trans (hcn i j)
  have hpq : ∀ i j, 0 ≤ p i j * q i := fun i j => mul_nonneg (hp i j) (hq i)
  have hc0 : ∀ i j, 0 ≤ c i j := fun i j => (hcn' i j).nonneg (hpq i j)
  have hS : ∀ j, ∃ y, (A.sum fun i => fin (c i j)) = fin y ∧ Near ((n + 1 : ℕ) * u) (∑ i, c i j) y :=
    fun j => hA.sum _ fun i => hc0 i j
  choose s hs hsn using hS
  have hsn' : ∀ j, Near (ε + u + (n + 1 : ℕ) * u) (∑ i, p i j * q i) (s j) :=
    fun j => (Near.sum fun i _ => hcn' i j).trans (hsn j)
  have hs0 : ∀ j, 0 < s j := fun j => (hsn' j).pos (hpos j)
  have hQ : ∀ j i, ∃ a, A.div (fin (c i j)) (fin (s j)) = fin a ∧ Near u (c i j / s j) a :=
    fun j i => hA.div _ _ (hc0 i j) (hs0 j)
  choose a ha han using hQ
  refine ⟨a, fun j i => ?_, fun j i => ?_⟩
  · simp only [getReverseKernelWith, hd, ht, hc, hs, ha]
  · have h1 := (hcn' i j).mul ((hsn' j).inv (hpos j)) (hpq i j) (inv_pos.mpr (hpos j)).le
    rw [← div_eq_mul_inv, ← div_eq_mul_inv] at h1
    refine (h1.trans (han j i)).mono (div_nonneg (hpq i j) (hpos j).le) (le_of_eq ?_)
    push_cast
    ring

/-- The exact reverse kernel of the step from `t` to `t + 1`. -/
noncomputable def reverseMat (M : HMM (Fin (n + 1))) (t : ℕ) : Matrix (Fin (n + 1)) (Fin (n + 1)) ℝ :=
  fun j i => M.filterJoint t i * M.trans t i j / ∑ i, M.filterJoint t i * M.trans t i j

/-- The product of the reverse kernels of the times `T - r, T - r - 1, ..., T - r - m + 1`. -/
noncomputable def reverseSteps (M : HMM (Fin (n + 1))) (T r : ℕ) : ℕ → Matrix (Fin (n + 1)) (Fin (n + 1)) ℝ
  | 0 => 1
  | m + 1 => reverseSteps M T r m * reverseMat M (T - r - m)

/-- The matrix that belongs to `m` elements of the scan, the first of which is the `r`-th from the end. -/
noncomputable def reverseBlock (M : HMM (Fin (n + 1))) (T : ℕ) : ℕ → ℕ → Matrix (Fin (n + 1)) (Fin (n + 1)) ℝ
  | 0, m => fun _ k => M.smoothLaw T ⟨T - (m - 1), by omega⟩ k
  | r + 1, m => reverseSteps M T (r + 1) m

theorem smooth_row_step {T : ℕ} (hreach : AllReachable M T) (t : ℕ) (ht : t < T) (k : Fin (n + 1)) :
    ∑ j, M.smoothLaw T ⟨t + 1, by omega⟩ j * reverseMat M t j k = M.smoothLaw T ⟨t, by omega⟩ k := by
  obtain ⟨m, rfl⟩ : ∃ m, T = t + (m + 1) := ⟨T - t - 1, by omega⟩
  exact smoothLaw_step t m k (hreach t ht)

theorem reverseSteps_add (T r m m' : ℕ) :
    reverseSteps M T r m * reverseSteps M T (r + m) m' = reverseSteps M T r (m + m') := by
  induction m' with
  | zero => simp [reverseSteps]
  | succ m' ih =>
    rw [reverseSteps, ← Matrix.mul_assoc, ih, ← Nat.add_assoc, reverseSteps]
    congr 2
    omega

theorem rows_mul_reverseSteps {T : ℕ} (hreach : AllReachable M T) (m m' : ℕ) (hm : 1 ≤ m) (hT : m + m' ≤ T + 1) :
    (Matrix.of (reverseBlock M T 0 m)) * reverseSteps M T m m' = reverseBlock M T 0 (m + m') := by
  induction m' with
  | zero => simp only [reverseSteps, mul_one, Nat.add_zero]; rfl
  | succ m' ih =>
    rw [reverseSteps, ← Matrix.mul_assoc, ih (by omega)]
    funext i k
    rw [Matrix.mul_apply]
    have h := smooth_row_step hreach (T - m - m') (by omega) k
    have e1 : ∀ j, reverseBlock M T 0 (m + m') i j = M.smoothLaw T ⟨T - m - m' + 1, by omega⟩ j := by
      intro j
      simp only [reverseBlock]
      congr 2
      omega
    have e2 : reverseBlock M T 0 (m + (m' + 1)) i k = M.smoothLaw T ⟨T - m - m', by omega⟩ k := by
      simp only [reverseBlock]
      congr 2
      omega
    rw [e2, ← h]
    exact Finset.sum_congr rfl fun j _ => by rw [e1]

theorem reverseBlock_mul {T : ℕ} (hreach : AllReachable M T) (r m m' : ℕ) (hm : 1 ≤ m) (hT : r + m + m' ≤ T + 1) :
    reverseBlock M T r m * reverseBlock M T (r + m) m' = reverseBlock M T r (m + m') := by
  obtain ⟨l, rfl⟩ : ∃ l, m = l + 1 := ⟨m - 1, by omega⟩
  cases r with
  | zero =>
    rw [show 0 + (l + 1) = l + 1 by omega]
    exact rows_mul_reverseSteps hreach (l + 1) m' (by omega) (by omega)
  | succ r =>
    rw [show r + 1 + (l + 1) = r + 1 + l + 1 by omega]
    exact reverseSteps_add T (r + 1) (l + 1) m'

theorem reverseMat_nonneg {T : ℕ} (hf : ∀ t ≤ T, ∀ k, 0 ≤ M.filterJoint t k) (hV : Valid M) (hreach : AllReachable M T)
    (t : ℕ) (ht : t < T) (i j : Fin (n + 1)) : 0 ≤ reverseMat M t i j :=
  div_nonneg (mul_nonneg (hf t ht.le j) (hV.trans_nonneg t j i)) (hreach t ht i).le

theorem reverseSteps_nonneg {T : ℕ} (hf : ∀ t ≤ T, ∀ k, 0 ≤ M.filterJoint t k) (hV : Valid M) (hreach : AllReachable M T)
    (r m : ℕ) (hr : 1 ≤ r) (hm : r + m ≤ T + 1) (i j : Fin (n + 1)) : 0 ≤ reverseSteps M T r m i j := by
  induction m generalizing j with
  | zero => simp only [reverseSteps, Matrix.one_apply]; split_ifs <;> norm_num
  | succ m ih =>
    rw [reverseSteps, Matrix.mul_apply]
    exact Finset.sum_nonneg fun k _ => mul_nonneg (ih (by omega) k)
      (reverseMat_nonneg hf hV hreach _ (by omega) k j)

theorem smoothLaw_last (T : ℕ) (k : Fin (n + 1)) : M.smoothLaw T ⟨T, by omega⟩ k = M.filterLaw T k := by
  have h := M.smoothJoint_eq T 0 k
  rw [M.future_zero, mul_one] at h
  unfold HMM.smoothLaw HMM.filterLaw
  exact congrArg (· / M.evidence T) h

theorem reverseBlock_nonneg {T : ℕ} (hf : ∀ t ≤ T, ∀ k, 0 ≤ M.filterJoint t k) (he : 0 ≤ M.evidence T) (hV : Valid M)
    (hreach : AllReachable M T) (r m : ℕ) (hm : 1 ≤ m) (hrm : r + m ≤ T + 1) (i j : Fin (n + 1)) :
    0 ≤ reverseBlock M T r m i j := by
  cases r with
  | zero =>
    obtain ⟨l, rfl⟩ : ∃ l, m = 1 + l := ⟨m - 1, by omega⟩
    rw [← rows_mul_reverseSteps hreach 1 l le_rfl (by omega), Matrix.mul_apply]
    refine Finset.sum_nonneg fun k _ => mul_nonneg ?_ (reverseSteps_nonneg hf hV hreach 1 l le_rfl (by omega) k j)
    have : Matrix.of (reverseBlock M T 0 1) i k = M.filterLaw T k := smoothLaw_last T k
    rw [this]
    exact div_nonneg (hf T le_rfl k) he
  | succ r => exact reverseSteps_nonneg hf hV hreach (r + 1) m (by omega) hrm i j

/-- **C130.** If the filtering distributions handed to the discrete smoother have relative errors of at most `E`, and every
arithmetic operation one of at most `u`, then the smoothing distribution at time `t` of `T` has a relative error of at most
`E + (T - t) (2 E + (2 N + 4) u)` for `N` states, sequentially and in parallel. -/
theorem discrete_smoother_rounding (hA : A.Accurate u B) {us : List Inp} (hpos : 1 ≤ us.length)
    (htr : ∀ t v, us[t]? = some v → ∀ i j, getTrans v i j = fin (M.trans t i j)) (hV : Valid M)
    (hf : ∀ t ≤ us.length, ∀ k, 0 ≤ M.filterJoint t k) (hev : ∀ t ≤ us.length, 0 < M.evidence t)
    (hreach : AllReachable M us.length) {E : ℝ} (filterStates : List (FilterState n Inp))
    (hlen : us.length + 1 = filterStates.length)
    (hE : ∀ (t : ℕ) s, filterStates[t]? = some s → ∃ d : Fin (n + 1) → ℝ, (∀ k, s.dist k = fin (d k)) ∧
      ∀ k, Near E (M.filterLaw t k) (d k))
    (parallel : Bool) (dummy : Inp → Inp) (rng : Prng K) (key : Option K) :
    ∃ states, (smoother rng FilterState.modelInputs (fun v => .ok (dummy v)) (buildSmootherWith A dummy getTrans)
        filterStates (some us) parallel key).result = .ok states ∧ states.length = us.length + 1 ∧
      ∀ (t : ℕ) (ht : t < us.length + 1) (s : SmootherState n Inp), states[t]? = some s → ∃ d : Fin (n + 1) → ℝ,
        (∀ k, s.dist k = fin (d k)) ∧
        ∀ k, Near (E + (us.length - t : ℕ) * (2 * E + (2 * n + 6) * u)) (M.smoothLaw us.length ⟨t, ht⟩ k) (d k) := by
  obtain ⟨T, hT⟩ : ∃ T, T = us.length := ⟨_, rfl⟩
  have hgn : ∀ r m, 1 ≤ m → r + m ≤ us.length + 1 → ∀ i j, 0 ≤ reverseBlock M us.length r m i j :=
    fun r m hm hrm i j => reverseBlock_nonneg hf (hev _ le_rfl).le hV hreach r m hm hrm i j
  have H : ∃ states, (smoother rng FilterState.modelInputs (fun v => .ok (dummy v)) (buildSmootherWith A dummy getTrans)
      filterStates (some us) parallel key).result = .ok states ∧ states.length = filterStates.length ∧
      ∀ (t : ℕ) (q : SmootherState n Inp), states[t]? = some q →
        MatNear (E + ((us.length - t + 1 : ℕ) - 1 : ℝ) * (2 * E + (2 * n + 6) * u))
          (reverseBlock M us.length 0 (us.length - t + 1)) q.a := by
    have h := smoother_blocks rng FilterState.modelInputs dummy (buildSmootherWith A dummy getTrans) filterStates us hlen hpos
      parallel key (fun r m q => MatNear (if r = 0 then E + ((m : ℝ) - 1) * (2 * E + (2 * n + 6) * u)
        else m * (2 * E + (2 * n + 6) * u) - (n + 2) * u) (reverseBlock M us.length r m) q.a) ?_ ?_ ?_
    · simpa using h
    · intro x v k hx _
      obtain ⟨d, hd, hdn⟩ := hE _ x hx
      refine ⟨fun _ k => d k, fun i j => hd j, fun i j => ?_⟩
      have e : reverseBlock M us.length 0 1 i j = M.filterLaw us.length j := smoothLaw_last _ j
      rw [e, if_pos rfl]
      simpa using hdn j
    · intro t x v k hx hv
      have ht : t < us.length := by
        by_contra hc; rw [List.getElem?_eq_none (by omega)] at hv; cases hv
      obtain ⟨d, hd, hdn⟩ := hE t x hx
      have hev' := hev t ht.le
      have hsum : ∀ j, ∑ i, M.trans t i j * M.filterLaw t i = (∑ i, M.filterJoint t i * M.trans t i j) / M.evidence t := by
        intro j
        rw [Finset.sum_div]
        refine Finset.sum_congr rfl fun i _ => ?_
        unfold HMM.filterLaw; ring
      have h := getReverseKernelWith_near hA hd hdn (fun i => div_nonneg (hf t ht.le i) hev'.le) (htr t v hv)
        (hV.trans_nonneg t) (fun j => by rw [hsum]; exact div_pos (hreach t ht j) hev')
      obtain ⟨r, hr⟩ : ∃ r, us.length - t = r + 1 := ⟨us.length - t - 1, by omega⟩
      have hm : reverseBlock M us.length (us.length - t) 1 =
          fun j i => M.trans t i j * M.filterLaw t i / ∑ i, M.trans t i j * M.filterLaw t i := by
        rw [hr]
        funext j i
        simp only [reverseBlock, reverseSteps, one_mul, Nat.sub_zero, hsum]
        rw [← hr, show us.length - (us.length - t) = t by omega]
        have h1 := (hreach t ht j).ne'
        have h2 := hev'.ne'
        unfold reverseMat HMM.filterLaw
        field_simp
      rw [hm, if_neg (by omega)]
      have e : ((1 : ℕ) : ℝ) * (2 * E + (2 * n + 6) * u) - (n + 2) * u = 2 * E + (n + 4) * u := by push_cast; ring
      rw [e]
      exact h
    · intro r m m' a b hm hm' _ hN ha hb
      have h := smoothingOperatorWith_near hA (hgn r m hm (by omega)) (hgn (r + m) m' hm' (by omega)) ha hb
      rw [reverseBlock_mul hreach r m m' hm hN] at h
      rw [if_neg (by omega : ¬ r + m = 0)] at h
      rcases Nat.eq_zero_or_pos r with rfl | hr
      · rw [if_pos rfl] at h ⊢
        have e : E + ((m : ℝ) - 1) * (2 * E + (2 * n + 6) * u) + (m' * (2 * E + (2 * n + 6) * u) - (n + 2) * u) +
            (n + 2) * u = E + (((m + m' : ℕ) : ℝ) - 1) * (2 * E + (2 * n + 6) * u) := by push_cast; ring
        rw [← e]
        exact h
      · rw [if_neg hr.ne'] at h ⊢
        have e : (m : ℝ) * (2 * E + (2 * n + 6) * u) - (n + 2) * u + (m' * (2 * E + (2 * n + 6) * u) - (n + 2) * u) +
            (n + 2) * u = ((m + m' : ℕ) : ℝ) * (2 * E + (2 * n + 6) * u) - (n + 2) * u := by push_cast; ring
        rw [← e]
        exact h
  obtain ⟨states, h1, h2, h3⟩ := H
  refine ⟨states, h1, by rw [h2, hlen], fun t ht s hs => ?_⟩
  obtain ⟨d, hd, hdn⟩ := h3 t s hs
  refine ⟨d 0, fun k => hd 0 k, fun k => ?_⟩
  have h4 := hdn 0 k
  have e1 : reverseBlock M us.length 0 (us.length - t + 1) 0 k = M.smoothLaw us.length ⟨t, ht⟩ k := by
    simp only [reverseBlock, Nat.add_sub_cancel]
    congr 2
    omega
  have e2 : ((us.length - t + 1 : ℕ) - 1 : ℝ) = (us.length - t : ℕ) := by push_cast; ring
  rw [e1, e2] at h4
  exact h4

/-- With exact arithmetic, the rounded smoother is the smoother of `Model/Discrete.lean`. -/
theorem buildSmootherWith_exact (dummy : Inp → Inp) (getTrans : Inp → Fin (n + 1) → Fin (n + 1) → Fl) :
    buildSmootherWith (K := K) Arith.exact dummy getTrans = buildSmoother dummy getTrans := rfl

/-- **C130** (filter and smoother). Filtering `T + 1` inputs and smoothing the result, each sequentially or in parallel: the
relative error at time `t` is at most `E + (T - t) (2 E + (2 N + 4) u)` with `E = 2 (2 T + 1) C u`, so it grows at most
quadratically with the length of the series. -/
theorem discrete_filter_smoother_rounding {D L : ℝ} (hA : A.Accurate u B) {u₀ : Inp} {us : List Inp}
    (hR : Represents M getInit getTrans getObs (u₀ :: us)) (hV : Valid M) (hT : 1 ≤ us.length)
    (hpos : RowsPositive M us.length) (hreach : AllReachable M us.length) (parF parS : Bool)
    (hb : Bounds M us.length parF D L) (hD : 0 ≤ D) (hB : D + 1 ≤ B)
    (hu : (2 * us.length + 1) * (errConst n D L * u) ≤ 1 / 4)
    (rng rng' : Prng K) (key key' : Option K) (dummy : Inp → Inp) :
    ∃ filtered smoothed,
      (filter rng (buildFilterWith A getInit getTrans getObs) (u₀ :: us) parF key).result = .ok filtered ∧
      (smoother rng' FilterState.modelInputs (fun v => .ok (dummy v)) (buildSmootherWith A dummy getTrans)
        filtered none parS key').result = .ok smoothed ∧ smoothed.length = us.length + 1 ∧
      ∀ (t : ℕ) (ht : t < us.length + 1) (s : SmootherState n Inp), smoothed[t]? = some s → ∃ d : Fin (n + 1) → ℝ,
        (∀ k, s.dist k = fin (d k)) ∧
        ∀ k, Near (2 * ((2 * us.length + 1) * (errConst n D L * u)) +
            (us.length - t : ℕ) * (2 * (2 * ((2 * us.length + 1) * (errConst n D L * u))) + (2 * n + 6) * u))
          (M.smoothLaw us.length ⟨t, ht⟩ k) (d k) := by
  have hL0 : 0 ≤ L := (abs_nonneg _).trans (hb.evidence 0 (by omega))
  have hC0 : 0 ≤ errConst n D L * u := mul_nonneg (errConst_nonneg hD hL0) hA.unit_nonneg
  obtain ⟨states, h1, h2, h3⟩ := discrete_filter_rounding hA hR hV (List.cons_ne_nil _ _) hpos parF hb hD hB hu rng key
  have hg : ∀ t ≤ us.length, Good (blockMat M 0 (t + 1)) := fun t ht =>
    blockMat_good hR hV hpos 0 (t + 1) (by omega) (by simp; omega)
  have hf : ∀ t ≤ us.length, ∀ k, 0 ≤ M.filterJoint t k := fun t ht k => (hg t ht).nonneg 0 k
  have hev : ∀ t ≤ us.length, 0 < M.evidence t := fun t ht => by
    have := (hg t ht).pos 0
    rwa [rowSum_blockMat_zero] at this
  have hin : states.map FilterState.modelInputs = u₀ :: us := by
    obtain ⟨states', h1', h2', h3'⟩ := filter_blocks rng (buildFilterWith (K := K) A getInit getTrans getObs) (u₀ :: us)
      (List.cons_ne_nil _ _) parF key (fun s m a => (u₀ :: us)[s + m - 1]? = some a.modelInputs)
      (fun v k hv => by simpa [buildFilterWith, initPrepareWith] using hv)
      (fun t v k hv => by simpa [buildFilterWith, filterPrepareWith] using hv)
      (fun s m m' a b _ _ _ _ _ hb => by
        simpa only [buildFilterWith, filterCombineWith, Nat.add_assoc] using hb)
    rw [h1] at h1'
    cases h1'
    refine List.ext_getElem? fun t => ?_
    rw [List.getElem?_map]
    rcases lt_or_ge t states.length with h | h
    · rw [List.getElem?_eq_getElem h]
      have := h3' t _ (List.getElem?_eq_getElem h)
      simpa using this.symm
    · rw [List.getElem?_eq_none h, List.getElem?_eq_none (by omega), Option.map_none]
  have hlen : us.length + 1 = states.length := by rw [h2, List.length_cons]
  have key0 := discrete_smoother_rounding (K := K) (getTrans := getTrans) (M := M) hA hT
    (fun t v hv => hR.trans t v (by simpa using hv)) hV hf hev hreach
    (E := 2 * ((2 * us.length + 1) * (errConst n D L * u))) states hlen
    (fun t s hs => by
      obtain ⟨d, l, hd, -, hn, -⟩ := h3 t s hs
      have ht : t ≤ us.length := by
        by_contra hc; rw [List.getElem?_eq_none (by omega)] at hs; cases hs
      refine ⟨d, hd, fun k => (hn k).mono (div_nonneg (hf t ht k) (hev t ht).le) ?_⟩
      have : (t : ℝ) ≤ us.length := by exact_mod_cast ht
      have := mul_le_mul_of_nonneg_right (by linarith : 2 * (t : ℝ) + 1 ≤ 2 * us.length + 1) hC0
      linarith)
    parS dummy rng' key'
  obtain ⟨smoothed, g1, g2, g3⟩ := key0
  refine ⟨states, smoothed, h1, ?_, g2, g3⟩
  rw [smoother_none_eq, hin, smoother_trim_eq _ _ _ _ _ _ _ hlen]
  exact g1

/-- Non-vacuity: the model of the example for the filter reaches every state at every time; its remaining assumptions hold
there too. -/
example (T : ℕ) : AllReachable (n := 1) twoStates T := by
  intro t _ j
  have h : ∑ i, twoStates.filterJoint t i * twoStates.trans t i j = twoStates.evidence t * (1 / 2) := by
    rw [HMM.evidence_eq_sum, Finset.sum_mul]
    rfl
  rw [h, twoStates_evidence]
  positivity

end Cuthbert.Discrete
