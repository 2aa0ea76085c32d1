import Verif.Spec.Arith
import Verif.Lemmas.Near
import Verif.Lemmas.Discrete

/-!
# Error analysis of the discrete filter
-/

namespace Cuthbert
open Fl

namespace Fl

/-- The maximum is attained and bounds the finite entries. -/
theorem fold_max_spec {ι : Type*} (s : Finset ι) (v : ι → Fl) (h : ∀ i ∈ s, (v i).IsLog) {m : ℝ}
    (hm : s.fold Fl.max ninf v = fin m) :
    (∃ i ∈ s, v i = fin m) ∧ ∀ i ∈ s, ∀ g, v i = fin g → g ≤ m := by
  classical
  induction s using Finset.induction_on generalizing m with
  | empty => rw [Finset.fold_empty] at hm; cases hm
  | insert a s ha ih =>
    have hs : ∀ i ∈ s, (v i).IsLog := fun i hi => h i (Finset.mem_insert_of_mem hi)
    rw [Finset.fold_insert ha] at hm
    rcases isLog_cases (fold_max_isLog s v hs).1 with e' | ⟨r', e'⟩
    · have hnone : ∀ i ∈ s, v i = ninf := by
        intro i hi
        by_contra hc
        obtain ⟨m', hm'⟩ := (fold_max_isLog s v hs).2 ⟨i, hi, hc⟩
        rw [hm'] at e'
        cases e'
      rcases isLog_cases (h a (Finset.mem_insert_self a s)) with e | ⟨r, e⟩
      · rw [e, e'] at hm
        cases hm
      · rw [e, e'] at hm
        have hm : r = m := by simpa [Fl.max] using hm
        subst hm
        refine ⟨⟨a, Finset.mem_insert_self a s, e⟩, fun i hi g hg => ?_⟩
        rcases Finset.mem_insert.mp hi with rfl | hi
        · rw [e, fin.injEq] at hg; exact hg.ge
        · rw [hnone i hi] at hg; cases hg
    · obtain ⟨⟨b, hb, hb'⟩, h2⟩ := ih hs e'
      rcases isLog_cases (h a (Finset.mem_insert_self a s)) with e | ⟨r, e⟩
      · rw [e, e'] at hm
        have hm : r' = m := by simpa [Fl.max] using hm
        subst hm
        refine ⟨⟨b, Finset.mem_insert_of_mem hb, hb'⟩, fun i hi g hg => ?_⟩
        rcases Finset.mem_insert.mp hi with rfl | hi
        · rw [e] at hg; cases hg
        · exact h2 i hi g hg
      · rw [e, e'] at hm
        have hm : max r r' = m := by simpa [Fl.max] using hm
        subst hm
        constructor
        · rcases max_choice r r' with hc | hc
          · exact ⟨a, Finset.mem_insert_self a s, by rw [hc, e]⟩
          · exact ⟨b, Finset.mem_insert_of_mem hb, by rw [hc, hb']⟩
        · intro i hi g hg
          rcases Finset.mem_insert.mp hi with rfl | hi
          · rw [e, fin.injEq] at hg; exact hg ▸ le_max_left _ _
          · exact (h2 i hi g hg).trans (le_max_right _ _)

theorem vmax_spec {n : ℕ} {v : Fin n → Fl} (h : ∀ i, (v i).IsLog) (h' : ∃ i, v i ≠ ninf) :
    ∃ m, vmax v = fin m ∧ (∃ i, v i = fin m) ∧ ∀ i g, v i = fin g → g ≤ m := by
  obtain ⟨m, hm⟩ := vmax_fin v h h'
  obtain ⟨⟨i, -, hi⟩, h2⟩ := fold_max_spec Finset.univ v (fun i _ => h i) hm
  exact ⟨m, hm, ⟨i, hi⟩, fun i g hg => h2 i (Finset.mem_univ i) g hg⟩

end Fl

namespace Discrete

variable {n : ℕ} {A : Arith} {u B : ℝ}

/-- `condition_on_obs`: the normalised rows and the log normalising constants together have a small relative error, and so
do the sums of the rows. -/
theorem conditionOnObsWith_near (hA : A.Accurate u B) {p : Fin (n + 1) → Fin (n + 1) → ℝ} (hp : ∀ i j, 0 ≤ p i j)
    {lls : Fin (n + 1) → Fl} (hl : ∀ j, (lls j).IsLog) (hpos : ∀ i, 0 < ∑ j, p i j * lik (lls j))
    {S R Mx W : ℝ} (hS : ∀ i j gi gj, lls i = fin gi → lls j = fin gj → gi - gj ≤ S) (hu : u ≤ 1) (hB : S + u * S ≤ B)
    (hR : ∀ i, |Real.log (∑ j, p i j * lik (lls j))| ≤ R) (hMx : ∀ j g, lls j = fin g → |g| ≤ Mx)
    (hW : R + Mx + (u + u * S + u + (n + 1) * u) ≤ W) :
    ∃ (a : Fin (n + 1) → Fin (n + 1) → ℝ) (l : Fin (n + 1) → ℝ),
      conditionOnObsWith A (fun i j => fin (p i j)) lls = (fun i j => fin (a i j), fun i => fin (l i)) ∧
      (∀ i j, 0 ≤ a i j) ∧
      (∀ i j, Near (u + u * S + 2 * u + 3 * u * W) (p i j * lik (lls j)) (Real.exp (l i) * a i j)) ∧
      (∀ i, Near ((n + 2) * u) 1 (∑ j, a i j)) ∧
      ∀ i, |l i - Real.log (∑ j, p i j * lik (lls j))| ≤ u + u * S + u + (n + 1) * u + 3 * u * W := by
  have hu0 := hA.unit_nonneg
  have hex : ∃ j, lls j ≠ ninf := by
    by_contra hc
    have := hpos 0
    rw [Finset.sum_eq_zero] at this
    · exact lt_irrefl _ this
    · intro j _
      have : lls j = ninf := by by_contra h; exact hc ⟨j, h⟩
      rw [this]; simp [lik]
  obtain ⟨m, hm, ⟨j₀, hj₀⟩, hle⟩ := vmax_spec hl hex
  have hS0 : 0 ≤ S := by simpa using hS j₀ j₀ m m hj₀ hj₀
  have hMm : |m| ≤ Mx := hMx j₀ m hj₀
  -- exponentials
  have hE : ∀ j, ∃ e, A.exp (A.sub (lls j) (fin m)) = fin e ∧ Near (u + u * S) (lik (lls j) * Real.exp (-m)) e := by
    intro j
    rcases isLog_cases (hl j) with h | ⟨g, h⟩
    · refine ⟨0, by rw [h, hA.sub_ninf, hA.exp_ninf], ?_⟩
      simp [h, lik, Near]
    · have hgm := hle j g h
      have hgS := hS j₀ j m g hj₀ h
      obtain ⟨x, hx, hxe⟩ := hA.sub g m
      have habs : |g - m| = m - g := by rw [abs_sub_comm, abs_of_nonneg (by linarith)]
      rw [habs] at hxe
      have hx1 := abs_le.mp hxe
      have hu1 : u * (m - g) ≤ 1 * (m - g) := mul_le_mul_of_nonneg_right hu (by linarith)
      have hu2 : u * (m - g) ≤ u * S := mul_le_mul_of_nonneg_left hgS hu0
      obtain ⟨e, he, hee⟩ := hA.exp x (by linarith) (by linarith)
      refine ⟨e, by rw [h, hx, he], ?_⟩
      have h1 : lik (lls j) * Real.exp (-m) = Real.exp (g - m) := by
        rw [h, sub_eq_add_neg, Real.exp_add]; rfl
      rw [h1, add_comm]
      exact (Near.exp (hxe.trans hu2)).trans hee
  choose e he hen using hE
  have hw0 : ∀ j, 0 ≤ lik (lls j) * Real.exp (-m) := fun j => mul_nonneg (lik_nonneg _) (Real.exp_pos _).le
  have he0 : ∀ j, 0 ≤ e j := fun j => (hen j).nonneg (hw0 j)
  -- products
  have hC : ∀ i j, ∃ c, A.mul (fin (p i j)) (fin (e j)) = fin c ∧ Near u (p i j * e j) c :=
    fun i j => hA.mul _ _ (hp i j) (he0 j)
  choose c hc hcn using hC
  have hc0 : ∀ i j, 0 ≤ c i j := fun i j => (hcn i j).nonneg (mul_nonneg (hp i j) (he0 j))
  have hcn' : ∀ i j, Near (u + u * S + u) (p i j * (lik (lls j) * Real.exp (-m))) (c i j) :=
    fun i j => ((hen j).const_mul (hp i j)).trans (hcn i j)
  -- sums
  have hN : ∀ i, ∃ s, (A.sum fun j => fin (c i j)) = fin s ∧ Near ((n + 1 : ℕ) * u) (∑ j, c i j) s :=
    fun i => hA.sum _ (hc0 i)
  choose s hs hsn using hN
  have hsum : ∀ i, ∑ j, p i j * (lik (lls j) * Real.exp (-m)) = (∑ j, p i j * lik (lls j)) * Real.exp (-m) := by
    intro i
    rw [Finset.sum_mul]
    exact Finset.sum_congr rfl fun j _ => (mul_assoc _ _ _).symm
  have hcs : ∀ i, Near (u + u * S + u) ((∑ j, p i j * lik (lls j)) * Real.exp (-m)) (∑ j, c i j) := by
    intro i
    rw [← hsum]
    exact Near.sum fun j _ => hcn' i j
  have hexp := Real.exp_pos (-m)
  have hcpos : ∀ i, 0 < ∑ j, c i j := fun i => (hcs i).pos (mul_pos (hpos i) hexp)
  have hspos : ∀ i, 0 < s i := fun i => (hsn i).pos (hcpos i)
  -- quotients
  have hQ : ∀ i j, ∃ a, A.div (fin (c i j)) (fin (s i)) = fin a ∧ Near u (c i j / s i) a :=
    fun i j => hA.div _ _ (hc0 i j) (hspos i)
  choose a ha han using hQ
  -- logarithms
  have hlogs : ∀ i, |Real.log (s i) - (Real.log (∑ j, p i j * lik (lls j)) - m)| ≤ u + u * S + u + (n + 1) * u := by
    intro i
    have h1 := ((hcs i).trans (hsn i)).log (mul_pos (hpos i) hexp)
    rw [Real.log_mul (hpos i).ne' hexp.ne', Real.log_exp] at h1
    push_cast at h1
    rw [sub_eq_add_neg _ m]
    exact h1
  have hLW : ∀ i, |Real.log (s i)| ≤ W ∧ |Real.log (s i) + m| ≤ W := by
    intro i
    have h1 := abs_le.mp (hlogs i)
    have h2 := abs_le.mp (hR i)
    have h3 := abs_le.mp hMm
    constructor <;> rw [abs_le] <;> constructor <;> linarith [abs_nonneg m]
  have hG : ∀ i, ∃ l, A.add (A.log (fin (s i))) (fin m) = fin l ∧ |l - (Real.log (s i) + m)| ≤ 3 * u * W := by
    intro i
    obtain ⟨x, hx, hxe⟩ := hA.log _ (hspos i)
    obtain ⟨l, hl', hle'⟩ := hA.add x m
    refine ⟨l, by rw [hx, hl'], ?_⟩
    obtain ⟨hW1, hW2⟩ := hLW i
    have hW0 : 0 ≤ W := (abs_nonneg _).trans hW1
    have h1 : |x - Real.log (s i)| ≤ u * W := hxe.trans (mul_le_mul_of_nonneg_left hW1 hu0)
    have huW : u * W ≤ 1 * W := mul_le_mul_of_nonneg_right hu hW0
    have h2 : |x + m| ≤ 2 * W := by
      have h3 := abs_le.mp h1
      have h4 := abs_le.mp hW2
      rw [abs_le]
      constructor <;> linarith
    have h5 : |l - (x + m)| ≤ u * (2 * W) := hle'.trans (mul_le_mul_of_nonneg_left h2 hu0)
    have h6 := abs_le.mp h1
    have h7 := abs_le.mp h5
    rw [abs_le]
    constructor <;> linarith
  choose l hl' hln using hG
  refine ⟨a, l, ?_, fun i j => (han i j).nonneg (div_nonneg (hc0 i j) (hspos i).le), ?_, ?_, ?_⟩
  · unfold conditionOnObsWith
    simp only [hm, he, hc, hs, ha, hl']
  · intro i j
    have h1 : Near (3 * u * W) (s i * Real.exp m) (Real.exp (l i)) := by
      have := Near.exp (hln i)
      rwa [Real.exp_add, Real.exp_log (hspos i)] at this
    have h2 := h1.mul (han i j) (mul_pos (hspos i) (Real.exp_pos m)).le (div_nonneg (hc0 i j) (hspos i).le)
    have h3 : s i * Real.exp m * (c i j / s i) = c i j * Real.exp m := by
      field_simp [(hspos i).ne']
    rw [h3] at h2
    have h4 := (hcn' i j).mul_const (Real.exp_pos m).le
    have h5 : p i j * (lik (lls j) * Real.exp (-m)) * Real.exp m = p i j * lik (lls j) := by
      have : Real.exp (-m) * Real.exp m = 1 := by rw [← Real.exp_add]; simp
      rw [mul_assoc, mul_assoc, this, mul_one]
    rw [h5] at h4
    refine (h4.trans h2).mono (mul_nonneg (hp i j) (lik_nonneg _)) (le_of_eq ?_)
    ring
  · intro i
    have h1 : Near ((n + 1 : ℕ) * u) 1 ((∑ j, c i j) / s i) := by
      have := (hsn i).symm.div_const (hspos i).le
      rwa [div_self (hspos i).ne'] at this
    rw [Finset.sum_div] at h1
    have h2 := h1.trans (Near.sum fun j _ => han i j)
    refine h2.mono zero_le_one (le_of_eq ?_)
    push_cast
    ring
  · intro i
    have h1 := abs_le.mp (hlogs i)
    have h2 := abs_le.mp (hln i)
    rw [abs_le]
    constructor <;> linarith

/-- The scan element `e` represents the matrix `G` with a total relative error of `ε`. -/
def Represented (e : FilterScanElement n) (G : Matrix (Fin (n + 1)) (Fin (n + 1)) ℝ) (ε : ℝ) : Prop :=
  ∃ (f : Fin (n + 1) → Fin (n + 1) → ℝ) (g : Fin (n + 1) → ℝ) (δ ρ : ℝ),
    e = ⟨fun i j => fin (f i j), fun i => fin (g i)⟩ ∧ (∀ i j, 0 ≤ f i j) ∧ 0 ≤ δ ∧ 0 ≤ ρ ∧ δ + ρ ≤ ε ∧
    (∀ i j, Near δ (G i j) (Real.exp (g i) * f i j)) ∧ ∀ i, Near ρ 1 (∑ j, f i j)

/-- The log row sums. -/
theorem log_row_near {G : Matrix (Fin (n + 1)) (Fin (n + 1)) ℝ} (hG : Good G) {f : Fin (n + 1) → Fin (n + 1) → ℝ}
    {g : Fin (n + 1) → ℝ} {δ ρ : ℝ} (h1 : ∀ i j, Near δ (G i j) (Real.exp (g i) * f i j))
    (h2 : ∀ i, Near ρ 1 (∑ j, f i j)) (i : Fin (n + 1)) :
    Near (δ + ρ) (rowSum G i) (Real.exp (g i)) ∧ |g i - Real.log (rowSum G i)| ≤ δ + ρ := by
  have h3 : Near δ (rowSum G i) (Real.exp (g i) * ∑ j, f i j) := by
    rw [Finset.mul_sum]
    exact Near.sum fun j _ => h1 i j
  have h4 := (h2 i).symm.const_mul (Real.exp_pos (g i)).le
  rw [mul_one] at h4
  have h5 := h3.trans h4
  refine ⟨h5, ?_⟩
  have h6 := h5.log (hG.pos i)
  rwa [Real.log_exp] at h6

/-- The number of roundings per operation, in units of `u`. -/
def errConst (n : ℕ) (D L : ℝ) : ℝ := 3 * (n + 1) + D + 12 * L + 15

/-- `filtering_operator` multiplies the matrices, and the errors add up. -/
theorem filteringOperatorWith_near (hA : A.Accurate u B) {e₁ e₂ : FilterScanElement n}
    {G₁ G₂ : Matrix (Fin (n + 1)) (Fin (n + 1)) ℝ} {ε₁ ε₂ D L : ℝ} (h₁ : Represented e₁ G₁ ε₁)
    (h₂ : Represented e₂ G₂ ε₂) (hG₁ : Good G₁) (hG₂ : Good G₂) (hε₁ : ε₁ ≤ 1 / 4) (hε₂ : ε₂ ≤ 1 / 4)
    (hD : ∀ i j, Real.log (rowSum G₂ i) - Real.log (rowSum G₂ j) ≤ D) (hL₁ : ∀ i, |Real.log (rowSum G₁ i)| ≤ L)
    (hL₂ : ∀ i, |Real.log (rowSum G₂ i)| ≤ L) (hL : ∀ i, |Real.log (rowSum (G₁ * G₂) i)| ≤ L)
    (hu : errConst n D L * u ≤ 1 / 4) (hB : D + 1 ≤ B) :
    Represented (filteringOperatorWith A e₁ e₂) (G₁ * G₂) (ε₁ + ε₂ + errConst n D L * u) := by
  have hu0 := hA.unit_nonneg
  obtain ⟨f₁, g₁, δ₁, ρ₁, rfl, hf₁, hδ₁, hρ₁, hδρ₁, hn₁, hr₁⟩ := h₁
  obtain ⟨f₂, g₂, δ₂, ρ₂, rfl, hf₂, hδ₂, hρ₂, hδρ₂, hn₂, hr₂⟩ := h₂
  have hD0 : 0 ≤ D := by simpa using hD 0 0
  have hL0 : 0 ≤ L := (abs_nonneg _).trans (hL₁ 0)
  have hn0 : (0 : ℝ) ≤ n := Nat.cast_nonneg n
  have hexpand : errConst n D L * u = 3 * (n * u) + D * u + 12 * (L * u) + 18 * u := by unfold errConst; ring
  have hnu : 0 ≤ n * u := mul_nonneg hn0 hu0
  have hDu : 0 ≤ D * u := mul_nonneg hD0 hu0
  have hLu : 0 ≤ L * u := mul_nonneg hL0 hu0
  rw [hexpand] at hu
  have k1 := fun i => log_row_near hG₁ hn₁ hr₁ i
  have k2 := fun i => log_row_near hG₂ hn₂ hr₂ i
  -- the exact row sums of the product
  have hpos : ∀ i, 0 < ∑ j, f₁ i j * lik (fin (g₂ j)) := by
    intro i
    refine Finset.sum_pos' (fun j _ => mul_nonneg (hf₁ i j) (lik_nonneg _)) ?_
    have h3 := (hr₁ i).pos one_pos
    obtain ⟨j, -, hj⟩ := Finset.exists_lt_of_sum_lt (s := Finset.univ) (f := fun _ => (0 : ℝ)) (g := fun j => f₁ i j)
      (by simpa using h3)
    exact ⟨j, Finset.mem_univ j, mul_pos hj (Real.exp_pos _)⟩
  have hprod : ∀ i, Near (δ₁ + (δ₂ + ρ₂)) (rowSum (G₁ * G₂) i) (Real.exp (g₁ i) * ∑ j, f₁ i j * lik (fin (g₂ j))) := by
    intro i
    rw [rowSum_mul, Finset.mul_sum]
    refine Near.sum fun j _ => ?_
    rw [← mul_assoc]
    exact (hn₁ i j).mul (k2 j).1 (hG₁.nonneg i j) (hG₂.pos j).le
  have hlogp : ∀ i, |Real.log (∑ j, f₁ i j * lik (fin (g₂ j)))| ≤ 2 * L + 3 / 4 := by
    intro i
    have h3 := (hprod i).log ((good_mul hG₁ hG₂).pos i)
    rw [Real.log_mul (Real.exp_ne_zero _) (hpos i).ne', Real.log_exp] at h3
    have h4 := abs_le.mp h3
    have h5 := abs_le.mp (k1 i).2
    have h6 := abs_le.mp (hL i)
    have h7 := abs_le.mp (hL₁ i)
    rw [abs_le]
    constructor <;> linarith
  obtain ⟨a, l, hc, ha0, han, har, hal⟩ := conditionOnObsWith_near hA hf₁ (lls := fun j => fin (g₂ j))
    (fun j => trivial) hpos (S := D + 1 / 2) (R := 2 * L + 3 / 4) (Mx := L + 1 / 4) (W := 3 * L + 2)
    (by
      intro i j gi gj hi hj
      rw [fin.injEq] at hi hj
      subst hi hj
      have h3 := abs_le.mp (k2 i).2
      have h4 := abs_le.mp (k2 j).2
      linarith [hD i j])
    (by linarith) (by linarith) hlogp
    (by
      intro j g hg
      rw [fin.injEq] at hg
      subst hg
      have h3 := abs_le.mp (k2 j).2
      have h4 := abs_le.mp (hL₂ j)
      rw [abs_le]
      constructor <;> linarith)
    (by linarith)
  -- the matrix product
  have hM : ∀ i j k, ∃ x, A.mul (fin (a i j)) (fin (f₂ j k)) = fin x ∧ Near u (a i j * f₂ j k) x :=
    fun i j k => hA.mul _ _ (ha0 i j) (hf₂ j k)
  choose x hx hxn using hM
  have hx0 : ∀ i j k, 0 ≤ x i j k := fun i j k => (hxn i j k).nonneg (mul_nonneg (ha0 i j) (hf₂ j k))
  have hS : ∀ i k, ∃ y, (A.sum fun j => fin (x i j k)) = fin y ∧ Near ((n + 1 : ℕ) * u) (∑ j, x i j k) y :=
    fun i k => hA.sum _ fun j => hx0 i j k
  choose f hf hfn using hS
  have hfn' : ∀ i k, Near ((n + 2) * u) (∑ j, a i j * f₂ j k) (f i k) := by
    intro i k
    have h3 := (Near.sum (s := Finset.univ) fun j _ => hxn i j k).trans (hfn i k)
    refine h3.mono (Finset.sum_nonneg fun j _ => mul_nonneg (ha0 i j) (hf₂ j k)) (le_of_eq ?_)
    push_cast
    ring
  -- the log normalising constants
  have hT : ∀ i, ∃ g, A.add (fin (g₁ i)) (fin (l i)) = fin g ∧ |g - (g₁ i + l i)| ≤ u * (3 * L + 2) := by
    intro i
    obtain ⟨g, hg, hge⟩ := hA.add (g₁ i) (l i)
    refine ⟨g, hg, hge.trans (mul_le_mul_of_nonneg_left ?_ hu0)⟩
    have h3 := abs_le.mp (k1 i).2
    have h4 := abs_le.mp (hL₁ i)
    have h5 := abs_le.mp (hlogp i)
    have h6 := abs_le.mp (hal i)
    rw [abs_le]
    constructor <;> linarith
  choose g hg hgn using hT
  refine ⟨f, g, δ₁ + δ₂ + (u + u * (D + 1 / 2) + 2 * u + 3 * u * (3 * L + 2) + u * (3 * L + 2) + (n + 2) * u),
    ρ₂ + (2 * ((n + 2) * u)), ?_, ?_, ?_, ?_, ?_, ?_, ?_⟩
  · unfold filteringOperatorWith
    simp only [hc, hx, hf, hg]
  · exact fun i k => (hfn' i k).nonneg (Finset.sum_nonneg fun j _ => mul_nonneg (ha0 i j) (hf₂ j k))
  · linarith
  · linarith
  · rw [hexpand]; linarith
  · intro i k
    have h3 : ∀ j, Near (δ₁ + δ₂ + (u + u * (D + 1 / 2) + 2 * u + 3 * u * (3 * L + 2))) (G₁ i j * G₂ j k)
        (Real.exp (g₁ i) * Real.exp (l i) * (a i j * f₂ j k)) := by
      intro j
      have h4 := (hn₁ i j).mul (hn₂ j k) (hG₁.nonneg i j) (hG₂.nonneg j k)
      have h5 := (han i j).const_mul (c := Real.exp (g₁ i) * f₂ j k) (mul_nonneg (Real.exp_pos _).le (hf₂ j k))
      have h6 : Real.exp (g₁ i) * f₁ i j * (Real.exp (g₂ j) * f₂ j k) =
          Real.exp (g₁ i) * f₂ j k * (f₁ i j * lik (fin (g₂ j))) := by
        simp only [lik]; ring
      rw [h6] at h4
      have h7 := h4.trans h5
      have h8 : Real.exp (g₁ i) * f₂ j k * (Real.exp (l i) * a i j) =
          Real.exp (g₁ i) * Real.exp (l i) * (a i j * f₂ j k) := by ring
      rwa [h8] at h7
    have h4 := Near.sum (s := Finset.univ) fun j _ => h3 j
    rw [← Finset.mul_sum] at h4
    have h5 := Near.exp (hgn i)
    rw [Real.exp_add] at h5
    have h6 := h5.mul (hfn' i k) (mul_pos (Real.exp_pos _) (Real.exp_pos _)).le
      (Finset.sum_nonneg fun j _ => mul_nonneg (ha0 i j) (hf₂ j k))
    have h7 := h4.trans h6
    rw [Matrix.mul_apply]
    refine h7.mono (Finset.sum_nonneg fun j _ => mul_nonneg (hG₁.nonneg i j) (hG₂.nonneg j k)) (le_of_eq ?_)
    ring
  · intro i
    have h3 : Near ((n + 2) * u) (∑ k, ∑ j, a i j * f₂ j k) (∑ k, f i k) := Near.sum fun k _ => hfn' i k
    have h4 : Near ρ₂ (∑ j, a i j) (∑ k, ∑ j, a i j * f₂ j k) := by
      rw [Finset.sum_comm]
      simp only [← Finset.mul_sum]
      refine Near.sum fun j _ => ?_
      have := (hr₂ j).const_mul (ha0 i j)
      rwa [mul_one] at this
    refine (((har i).trans h4).trans h3).mono zero_le_one (le_of_eq ?_)
    ring

/-- `filter_prepare`. -/
theorem filterPrepareWith_near {Inp : Type*} (hA : A.Accurate u B) {getTrans : Inp → Fin (n + 1) → Fin (n + 1) → Fl}
    {getObs : Inp → Fin (n + 1) → Fl} {v : Inp} {p : Fin (n + 1) → Fin (n + 1) → ℝ}
    (hpe : ∀ i j, getTrans v i j = fin (p i j)) (hp : ∀ i j, 0 ≤ p i j) (hl : ∀ j, (getObs v j).IsLog)
    {D L : ℝ} (hpos : ∀ i, 0 < ∑ j, p i j * lik (getObs v j))
    (hD : ∀ i j gi gj, getObs v i = fin gi → getObs v j = fin gj → gi - gj ≤ D)
    (hR : ∀ i, |Real.log (∑ j, p i j * lik (getObs v j))| ≤ L) (hMx : ∀ j g, getObs v j = fin g → |g| ≤ L)
    (hu : errConst n D L * u ≤ 1 / 4) (hB : D + 1 ≤ B) :
    Represented (filterPrepareWith A getTrans getObs v).elem (fun i j => p i j * lik (getObs v j))
      (errConst n D L * u) := by
  have hu0 := hA.unit_nonneg
  have hL0 : 0 ≤ L := (abs_nonneg _).trans (hR 0)
  have hex : ∃ j g, getObs v j = fin g := by
    by_contra hc
    have := hpos 0
    rw [Finset.sum_eq_zero] at this
    · exact lt_irrefl _ this
    · intro j _
      rcases isLog_cases (hl j) with h | ⟨g, h⟩
      · rw [h]; simp [lik]
      · exact absurd ⟨j, g, h⟩ hc
  obtain ⟨j₀, g₀, hj₀⟩ := hex
  have hD0 : 0 ≤ D := by simpa using hD j₀ j₀ g₀ g₀ hj₀ hj₀
  have hn0 : (0 : ℝ) ≤ n := Nat.cast_nonneg n
  have hexpand : errConst n D L * u = 3 * (n * u) + D * u + 12 * (L * u) + 18 * u := by unfold errConst; ring
  have hnu : 0 ≤ n * u := mul_nonneg hn0 hu0
  have hDu : 0 ≤ D * u := mul_nonneg hD0 hu0
  have hLu : 0 ≤ L * u := mul_nonneg hL0 hu0
  rw [hexpand] at hu
  obtain ⟨a, l, hc, ha0, han, har, -⟩ := conditionOnObsWith_near hA hp hl hpos (S := D) (R := L) (Mx := L)
    (W := 2 * L + 1) hD (by linarith) (by linarith) hR hMx (by linarith)
  have hpe' : getTrans v = fun i j => fin (p i j) := by funext i j; exact hpe i j
  refine ⟨a, l, u + u * D + 2 * u + 3 * u * (2 * L + 1), (n + 2) * u, ?_, ha0, by linarith, by linarith,
    by rw [hexpand]; linarith, han, har⟩
  unfold filterPrepareWith
  simp only [hpe', hc]

/-- `init_prepare`. -/
theorem initPrepareWith_near {Inp : Type*} (hA : A.Accurate u B) {getInit : Inp → Fin (n + 1) → Fl} {v : Inp}
    {q : Fin (n + 1) → ℝ} (hqe : ∀ j, getInit v j = fin (q j)) (hq : ∀ j, 0 ≤ q j) (hs : ∑ j, q j = 1) :
    Represented (initPrepareWith A getInit v).elem (fun _ j => q j) (2 * u) := by
  have hu0 := hA.unit_nonneg
  have h1 : ∀ j, ∃ c, A.mul (fin (q j)) (fin 1) = fin c ∧ Near u (q j * 1) c := fun j => hA.mul _ _ (hq j) zero_le_one
  choose c hc hcn using h1
  simp only [mul_one] at hcn
  refine ⟨fun _ j => c j, fun _ => 0, u, u, ?_, fun _ j => (hcn j).nonneg (hq j), hu0, hu0, by linarith, ?_, ?_⟩
  · unfold initPrepareWith
    simp only [hqe, hc]
  · intro i j
    simpa using hcn j
  · intro i
    rw [← hs]
    exact Near.sum fun j _ => hcn j

end Discrete

end Cuthbert
