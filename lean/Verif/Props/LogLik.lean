import Verif.Props.KalmanExact

/-!
# C27: exactly when the Kalman filter's log normalising constant is NaN
-/

namespace Cuthbert.Kalman
open Matrix Cuthbert Cuthbert.Spec

noncomputable section

variable {nx ny : ℕ} {Inp K : Type*}

theorem foldl_valid (cs : List (CElem (Fin nx))) : ∀ c : CElem (Fin nx), c.Valid → (∀ x ∈ cs, x.Valid) →
    (cs.foldl CElem.op c).Valid := by
  induction cs with
  | nil => intro c hc _; exact hc
  | cons d ds ih =>
    intro c hc h
    exact ih _ (hc.op (h d (List.mem_cons_self ..))) fun x hx => h x (List.mem_cons_of_mem _ hx)

theorem foldl_op_assoc (cs : List (CElem (Fin nx))) : ∀ c d : CElem (Fin nx), c.Valid → d.Valid → (∀ x ∈ cs, x.Valid) →
    cs.foldl CElem.op (c.op d) = c.op (cs.foldl CElem.op d) := by
  induction cs with
  | nil => intro c d _ _ _; rfl
  | cons e es ih =>
    intro c d hc hd h
    have he := h e (List.mem_cons_self ..)
    rw [List.foldl_cons, List.foldl_cons, CElem.op_assoc c d e hc hd he]
    exact ih c (d.op e) hc (hd.op he) fun x hx => h x (List.mem_cons_of_mem _ hx)

/-- A filter state together with the scan elements `tag` that were combined into it. If its log-likelihood is finite,
every proper prefix of them has a nonsingular covariance. -/
def Split (q : FilterState nx Inp × List (CElem (Fin nx))) : Prop :=
  ∃ e c cs, q.1.elem = some e ∧ q.2 = c :: cs ∧ c.Valid ∧ (∀ x ∈ cs, x.Valid) ∧
    Repr e (cs.foldl CElem.op c) ∧ IsLower e.U ∧
    (e.ell ≠ none → ∀ cs₁ d cs₂, cs = cs₁ ++ d :: cs₂ → (cs₁.foldl CElem.op c).C.det ≠ 0)

theorem Split.combine (qr : QR) {a b : FilterState nx Inp × List (CElem (Fin nx))} (ha : Split a) (hb : Split b) :
    Split (filterCombine qr a.1 b.1, a.2 ++ b.2) := by
  obtain ⟨e₁, c₁, cs₁, he₁, ht₁, hv₁, hvs₁, r₁, l₁, n₁⟩ := ha
  obtain ⟨e₂, c₂, cs₂, he₂, ht₂, hv₂, hvs₂, r₂, l₂, n₂⟩ := hb
  obtain ⟨e, he, hr, hlow, -, hdiag, hn1, hn2⟩ := filteringOperator_eq qr r₁ r₂
  have hw₁ := foldl_valid cs₁ c₁ hv₁ hvs₁
  refine ⟨e, c₁, cs₁ ++ c₂ :: cs₂, ?_, by rw [ht₁, ht₂]; rfl, hv₁, ?_, ?_, hlow, ?_⟩
  · simp only [filterCombine, he₁, he₂]; exact he
  · intro x hx
    rcases List.mem_append.1 hx with h | h
    · exact hvs₁ x h
    · rcases List.mem_cons.1 h with rfl | h
      exacts [hv₂, hvs₂ x h]
  · rw [List.foldl_append, List.foldl_cons, foldl_op_assoc cs₂ _ c₂ hw₁ hv₂ hvs₂]; exact hr
  · intro hne p d s hps
    have hne₁ : e₁.ell ≠ none := fun h => hne (hn1 h)
    have hne₂ : e₂.ell ≠ none := fun h => hne (hn2 h)
    have hd₁ : (cs₁.foldl CElem.op c₁).C.det ≠ 0 := by
      rw [← r₁.C]
      exact l₁.diag_ne_zero_iff_gram.mp fun i h0 => hne (hdiag ⟨i, h0⟩)
    rcases List.append_eq_append_iff.1 hps with ⟨w, hp, hw⟩ | ⟨w, hp, hw⟩
    · -- the prefix reaches into the right part
      rw [hp, List.foldl_append]
      cases w with
      | nil => simpa using hd₁
      | cons w ws =>
        rw [List.cons_append, List.cons.injEq] at hw
        obtain ⟨rfl, hw⟩ := hw
        have hvw : ∀ x ∈ ws, x.Valid := fun x hx => hvs₂ x (by rw [hw]; exact List.mem_append_left _ hx)
        rw [List.foldl_cons, foldl_op_assoc ws _ c₂ hw₁ hv₂ hvw]
        exact op_C_det hw₁ (foldl_valid ws c₂ hv₂ hvw) (n₂ hne₂ ws d s hw)
    · cases w with
      | nil =>
        rw [List.append_nil] at hp
        rw [← hp]; exact hd₁
      | cons w ws => exact n₁ hne₁ p w ws hp

theorem runningFold_tag {α : Type*} (xs : List α) : ∀ (c : List α) (t : ℕ), t ≤ xs.length →
    (runningFold (· ++ ·) c (xs.map fun x => [x]))[t]? = some (c ++ xs.take t) := by
  induction xs with
  | nil => intro c t ht; have : t = 0 := by simpa using ht
           subst this; simp [runningFold]
  | cons x xs ih =>
    intro c t ht
    cases t with
    | zero => simp [runningFold]
    | succ t =>
      simp only [List.map_cons, runningFold, List.getElem?_cons_succ, List.take_succ_cons]
      rw [ih _ t (by simpa using ht)]
      simp

theorem foldl_kf (ss : List (Step nx ny)) : ∀ k : KF nx, IsGram k.P → (∀ s ∈ ss, ScanOk s) →
    (ss.map prepOf).foldl CElem.op k.elem = (ss.foldl kfStep k).elem := by
  induction ss with
  | nil => intro k _ _; rfl
  | cons s ss ih =>
    intro k hk h
    have h0 := h s (List.mem_cons_self ..)
    rw [List.map_cons, List.foldl_cons, List.foldl_cons, kf_op_prep k hk s h0]
    exact ih _ (kfStep_gram hk s h0) fun s' h' => h s' (List.mem_cons_of_mem _ h')

/-- If the parallel filter's log normalising constant at `t` is finite, all earlier filtering covariances are
nonsingular. -/
theorem parallel_finite_det (qr : QR) (rng : Prng K) (cb : Callbacks nx ny Inp) (u₀ : Inp) (us : List Inp)
    (key : Option K) (hok : ∀ u ∈ us, ScanOk (stepOf cb u)) (hlow : IsLower (cb.getInit u₀).2)
    (par : List (FilterState nx Inp))
    (hp : (filter rng (buildFilter qr cb) (u₀ :: us) true key).result = .ok par) (t : ℕ) (ht : t ≤ us.length)
    (s : FilterState nx Inp) (hs : par[t]? = some s) (hfin : s.logNormalizingConstant ≠ none) :
    ∀ t' < t, (kfAt cb u₀ us t').P.det ≠ 0 := by
  rw [filter_parallel_eq, filterElems_eq, Except.ok.injEq] at hp
  obtain ⟨k₀, hk₀⟩ : ∃ k : KF nx, k = ⟨(cb.getInit u₀).1, (cb.getInit u₀).2 * ((cb.getInit u₀).2)ᵀ, 0⟩ :=
    ⟨_, rfl⟩
  obtain ⟨i₀, hi₀⟩ : ∃ i, i = (buildFilter (K := K) qr cb).initPrepare u₀
    (keyAt rng key (us.length + 1) 0) := ⟨_, rfl⟩
  have hk₀g : IsGram k₀.P := by rw [hk₀]; exact isGram_of _
  let opp : FilterState nx Inp × List (CElem (Fin nx)) → FilterState nx Inp × List (CElem (Fin nx)) →
    FilterState nx Inp × List (CElem (Fin nx)) := fun a b => (filterCombine qr a.1 b.1, a.2 ++ b.2)
  obtain ⟨pairs, hpairs⟩ : ∃ ps : List (FilterState nx Inp × List (CElem (Fin nx))),
    ps = (i₀, [k₀.elem]) :: us.map fun u => (filterPrepare qr cb u, [prepOf (stepOf cb u)]) := ⟨_, rfl⟩
  have hmem : ∀ x ∈ pairs, Split x := by
    intro x hx
    rw [hpairs] at hx
    rcases List.mem_cons.mp hx with rfl | hx
    · have hr : Repr ⟨0, (cb.getInit u₀).1, (cb.getInit u₀).2, 0, 0, some 0⟩ k₀.elem := by
        rw [hk₀]; exact ⟨rfl, rfl, rfl, rfl, by simp [Cuthbert.KF.elem]⟩
      refine ⟨_, k₀.elem, [], by rw [hi₀]; rfl, rfl, hr.valid, by simp, hr, hlow, fun _ cs₁ d cs₂ h => ?_⟩
      simp at h
    · obtain ⟨u, hu, rfl⟩ := List.mem_map.mp hx
      obtain ⟨e, he, hr, -, hlow⟩ := filterParams_eq qr (stepOf cb u).F (stepOf cb u).c
        (stepOf cb u).cholQ (stepOf cb u).H (stepOf cb u).d (stepOf cb u).cholR (stepOf cb u).y (hok u hu)
      refine ⟨e, _, [], he, rfl, prepOf_valid _ (hok u hu), by simp, hr, hlow, fun _ cs₁ d cs₂ h => ?_⟩
      simp at h
  have hcl : ∀ a b, Split a → Split b → Split (opp a b) := fun a b ha hb => Split.combine qr ha hb
  have h1 := associativeScan_map opp (filterCombine qr) Prod.fst _ hcl (fun _ _ _ _ => rfl) pairs hmem
  have h2 := associativeScan_map opp (· ++ ·) Prod.snd _ hcl (fun _ _ _ _ => rfl) pairs hmem
  have e1 : pairs.map Prod.fst = i₀ :: us.map (filterPrepare qr cb) := by
    rw [hpairs]; simp
  have e2 : pairs.map Prod.snd = [k₀.elem] :: ((us.map (stepOf cb)).map prepOf).map fun x => [x] := by
    rw [hpairs]; simp
  rw [e1] at h1
  rw [e2] at h2
  have hrf := associativeScan_eq_runningFold (· ++ ·) (fun _ : List (CElem (Fin nx)) => True)
    (fun _ _ _ _ => trivial) (fun a b c _ _ _ => List.append_assoc a b c) [k₀.elem]
    (((us.map (stepOf cb)).map prepOf).map fun x => [x]) (fun _ _ => trivial)
  rw [hrf] at h2
  rw [← hp, ← hi₀] at hs
  replace hs : (associativeScan (filterCombine qr) (i₀ :: us.map (filterPrepare qr cb)))[t]? = some s := hs
  rw [← h1.1, List.getElem?_map, Option.map_eq_some_iff] at hs
  obtain ⟨q, hq, rfl⟩ := hs
  obtain ⟨e, c, cs, he, htag, -, -, -, -, hn⟩ := h1.2 q (List.mem_of_getElem? hq)
  have hq2 : (runningFold (· ++ ·) [k₀.elem] (((us.map (stepOf cb)).map prepOf).map fun x => [x]))[t]? = some q.2 := by
    rw [← h2.1, List.getElem?_map, hq]; rfl
  rw [runningFold_tag _ _ t (by simpa using ht), Option.some.injEq, htag, List.singleton_append, List.cons.injEq] at hq2
  obtain ⟨rfl, rfl⟩ := hq2
  have hne : e.ell ≠ none := by simpa [FilterState.logNormalizingConstant, he] using hfin
  intro t' ht'
  have htl : t' < us.length := lt_of_lt_of_le ht' ht
  have hsplit : (((us.map (stepOf cb)).map prepOf).take t) = ((us.map (stepOf cb)).take t').map prepOf ++
      prepOf (stepOf cb us[t']) :: ((((us.map (stepOf cb)).map prepOf).take t).drop (t' + 1)) := by
    rw [List.map_take]
    conv_lhs => rw [← List.take_append_drop t' (((us.map (stepOf cb)).map prepOf).take t)]
    rw [List.take_take, min_eq_left ht'.le, List.drop_eq_getElem_cons (by simp; omega)]
    simp
  have := hn hne _ _ _ hsplit
  rw [foldl_kf _ k₀ hk₀g (by
    intro s hs
    obtain ⟨u, hu, rfl⟩ := List.mem_map.1 (List.mem_of_mem_take hs)
    exact hok u hu)] at this
  have hk : kfAt cb u₀ us t' = (((us.map (stepOf cb)).take t').foldl kfStep k₀) := by
    rw [kfAt, hk₀, List.map_take]
  rw [hk]; exact this

/-- If the sequential filter's log normalising constant at `t` is finite, all earlier filtering covariances are
nonsingular. -/
theorem sequential_finite_det (qr : QR) (cb : Callbacks nx ny Inp) (u₀ : Inp) (us : List Inp)
    (hok : ∀ u ∈ us, ScanOk (stepOf cb u)) (hlow : IsLower (cb.getInit u₀).2) {keys : ℕ → Option K}
    {states : List (FilterState nx Inp)}
    (hrun : IsOnlineFilterRun (buildFilter (K := K) qr cb).initPrepare
      (buildFilter (K := K) qr cb).filterPrepare (buildFilter (K := K) qr cb).filterCombine (u₀ :: us)
      keys states) :
    ∀ t ≤ us.length, ∀ s, states[t]? = some s → s.logNormalizingConstant ≠ none →
      ∀ t' < t, (kfAt cb u₀ us t').P.det ≠ 0 := by
  intro t
  induction t with
  | zero => intro _ s _ _ t' h; omega
  | succ t ih =>
    intro ht s hs hne
    have htl : t < us.length := ht
    have hoks : ∀ u ∈ us.take t, ScanOk (stepOf cb u) := fun u hu => hok u (List.mem_of_mem_take hu)
    obtain ⟨r, e, hr, he, hrep, -, hl, -⟩ := run_invariant qr cb u₀ us _ states hrun t htl.le hoks
    obtain ⟨p, hp, hpr, -⟩ := filterParams_eq qr (stepOf cb us[t]).F (stepOf cb us[t]).c (stepOf cb us[t]).cholQ
      (stepOf cb us[t]).H (stepOf cb us[t]).d (stepOf cb us[t]).cholR (stepOf cb us[t]).y (hok _ (List.getElem_mem htl))
    obtain ⟨e', he', -, -, -, hdiag, hn1, -⟩ := filteringOperator_eq qr hrep hpr
    have hst := hrun.step t us[t] r (by simp) hr
    rw [hs, Option.some.injEq] at hst
    have hc : s.elem = some e' := by
      rw [hst]
      show (do let e₁ ← r.elem
               let e₂ ← (filterPrepare qr cb us[t]).elem
               filteringOperator qr e₁ e₂) = some e'
      rw [he, filterPrepare_elem, hp]; exact he'
    have hne' : e'.ell ≠ none := by simpa [FilterState.logNormalizingConstant, hc] using hne
    intro t' ht'
    rcases Nat.lt_succ_iff_lt_or_eq.1 ht' with h | rfl
    · refine ih htl.le r hr ?_ t' h
      simp only [FilterState.logNormalizingConstant, he, Option.bind_some]
      exact fun h => hne' (hn1 h)
    · have hC : e.U * e.Uᵀ = (kfAt cb u₀ us t').P := hrep.C
      rw [← hC]
      exact (hl hlow).1.diag_ne_zero_iff_gram.mp fun i h0 => hne' (hdiag ⟨i, h0⟩)

/-- **C27** (what fails, exactly). For a lower triangular `chol_P0` and nonsingular observation noise, the log
normalising constant that the sequential filter returns at time `t` is finite if and only if all covariances that it
returned for the times before `t` are nonsingular. Whenever that of the parallel filter is finite, so is that of the
sequential filter, and they are equal: running in parallel can turn a result into NaN, and do no other harm. -/
theorem log_likelihood_finite_iff (qr : QR) (rng rng' : Prng K) (cb : Callbacks nx ny Inp) (u₀ : Inp) (us : List Inp)
    (key key' : Option K) (hR : ∀ u ∈ us, (stepOf cb u).R.det ≠ 0) (hlow : IsLower (cb.getInit u₀).2) :
    ∃ seq par : List (FilterState nx Inp),
      (filter rng (buildFilter qr cb) (u₀ :: us) false key).result = .ok seq ∧
      (filter rng' (buildFilter qr cb) (u₀ :: us) true key').result = .ok par ∧
      ∀ t ≤ us.length, ∃ s p, seq[t]? = some s ∧ par[t]? = some p ∧
        (s.logNormalizingConstant ≠ none ↔
          ∀ t' < t, ∃ s' L, seq[t']? = some s' ∧ s'.cholCov = some L ∧ (L * Lᵀ).det ≠ 0) ∧
        (p.logNormalizingConstant ≠ none → p.logNormalizingConstant = s.logNormalizingConstant) := by
  have hok : ∀ u ∈ us, ScanOk (stepOf cb u) := fun u hu => ScanOk.of_R _ (hR u hu)
  obtain ⟨seq, hseq, hrun⟩ := filter_sequential_is_online_run rng (buildFilter (K := K) qr cb)
    (u₀ :: us) key (by simp)
  obtain ⟨par, hpar, -, hinv⟩ := parallel_invariant qr rng' cb u₀ us key' hok False (fun h => h.elim)
  have hcov : ∀ t ≤ us.length, ∃ s L, seq[t]? = some s ∧ s.cholCov = some L ∧ L * Lᵀ = (kfAt cb u₀ us t).P := by
    intro t ht
    obtain ⟨s, e, hs, he, hr, -⟩ := run_invariant qr cb u₀ us _ seq hrun t ht
      fun u hu => hok u (List.mem_of_mem_take hu)
    exact ⟨s, e.U, hs, by simp [FilterState.cholCov, he], hr.C⟩
  refine ⟨seq, par, hseq, hpar, fun t ht => ?_⟩
  obtain ⟨s, e, hs, he, hr, -, hell, hfin⟩ := run_invariant qr cb u₀ us _ seq hrun t ht
    fun u hu => hok u (List.mem_of_mem_take hu)
  obtain ⟨p, hp, e', he', -, hell', -⟩ := hinv t ht
  have hse : s.logNormalizingConstant = e.ell := by simp [FilterState.logNormalizingConstant, he]
  have hpe : p.logNormalizingConstant = e'.ell := by
    have : p.elem = some e' := he'
    simp [FilterState.logNormalizingConstant, this]
  refine ⟨s, p, hs, hp, ⟨fun hne t' ht' => ?_, fun h => ?_⟩, fun hne => ?_⟩
  · obtain ⟨s', L, h1, h2, h3⟩ := hcov t' (ht'.le.trans ht)
    exact ⟨s', L, h1, h2, by rw [h3]; exact sequential_finite_det qr cb u₀ us hok hlow hrun t ht s hs hne t' ht'⟩
  · rw [hse]
    refine hfin hlow fun t' ht' => ?_
    obtain ⟨s', L, h1, h2, h3⟩ := h t' ht'
    obtain ⟨s'', L', h1', h2', h3'⟩ := hcov t' (ht'.le.trans ht)
    rw [h1, Option.some.injEq] at h1'
    subst h1'
    rw [h2, Option.some.injEq] at h2'
    subst h2'
    rwa [← h3']
  · have hdet := parallel_finite_det qr rng' cb u₀ us key' hok hlow par hpar t ht p hp hne
    have hfe := hfin hlow hdet
    obtain ⟨l, hl⟩ := Option.ne_none_iff_exists'.mp hfe
    obtain ⟨l', hl'⟩ := Option.ne_none_iff_exists'.mp (hpe ▸ hne)
    rw [hse, hpe, hl, hl', (hell hlow).2 l hl, (hell' hlow).2 l' hl']
    rfl

end

end Cuthbert.Kalman
