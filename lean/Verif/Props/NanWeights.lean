import Verif.Props.MarginalFilter
import Verif.Props.ParticleFilterRuns

/-!
# NaN weights in particle filters (C87)

A potential that is NaN for one particle makes the log normalising constant NaN for the rest of the run. The
particles, on the other hand, show no trace of it one step later: resampling replaces all of them by the first one,
with equal weights. The same happens when all particles have weight zero.
-/

namespace Cuthbert.SMC
open Resampling

noncomputable section

variable {K X Inp : Type} {N n : ℕ}

theorem logsumexp_nan {ι : Type*} [Fintype ι] {l : ι → Fl} (h : ∃ i, l i = Fl.nan) : Fl.logsumexp l = Fl.nan := by
  obtain ⟨i, hi⟩ := h
  rw [Fl.logsumexp, Fl.sum_nan _ _ i (Finset.mem_univ i) (by rw [hi, Fl.exp_nan]), Fl.log_nan]

theorem vmax_nan {l : Fin N → Fl} (h : ∃ i, l i = Fl.nan) : Fl.vmax l = Fl.nan := by
  obtain ⟨i, hi⟩ := h
  rw [Fl.vmax, ← Finset.insert_erase (Finset.mem_univ i), Finset.fold_insert (Finset.notMem_erase _ _), hi]
  cases Finset.fold Fl.max Fl.ninf l (Finset.univ.erase i) <;> rfl

/-- One weight is NaN, or all of them are zero. -/
def Degenerate (l : Fin N → Fl) : Prop := (∃ i, l i = Fl.nan) ∨ ∀ i, l i = Fl.ninf

theorem weights_degenerate {l : Fin N → Fl} (h : Degenerate l) (i : Fin N) : weights l i = Fl.nan := by
  rcases h with h | h
  · rw [weights, logsumexp_nan h, Fl.sub_nan, Fl.exp_nan]
  · have : Fl.logsumexp l = Fl.ninf := by
      rw [Fl.logsumexp]
      simp only [h, Fl.exp_ninf, Fl.sum_fin, Finset.sum_const_zero, Fl.log_zero]
    rw [weights, this, h]
    rfl

theorem ltb_nan (u : Fl) : Fl.ltb Fl.nan u = false := by
  rw [← Bool.not_eq_true, Fl.ltb_iff]
  cases u <;> exact fun h => h

theorem numbaState_nan [NeZero N] (su : Fin n → Fl) {ws : Fin N → Fl} (h : ws 0 = Fl.nan) :
    ∀ (m : ℕ) (hm : m ≤ n), numbaState su ws m hm = (0, Fl.nan)
  | 0, _ => by rw [numbaState, h]
  | m + 1, hm => by
    rw [numbaState, numbaState_nan su h m]
    simp only
    rw [advance, dif_neg (by rw [ltb_nan]; simp)]

/-- The inverse CDF of degenerate weights is the first index. -/
theorem inverseCdf_degenerate [NeZero N] (pf : Platform) (su : Fin n → Fl) {l : Fin N → Fl} (h : Degenerate l) :
    inverseCdf pf su l = fun _ => 0 := by
  funext m
  have hw := weights_degenerate h
  have h0 : (clipIdx 0 : Fin N) = 0 := Fin.ext (by simp [clipIdx])
  cases pf with
  | cpu => rw [inverseCdf, inverseCdfCpu, inverseCdfNumba, numbaState_nan su (hw 0), h0]
  | other =>
    have hc : ∀ i, cumsum (weights l) i = Fl.nan := fun i => by
      rw [cumsum, Fl.sum_nan _ _ i (by simp) (hw i)]
    have hs : searchsorted (cumsum (weights l)) (su m) = 0 := by
      rw [searchsorted, Finset.card_eq_zero, Finset.filter_eq_empty_iff]
      intro i _
      rw [hc, sortLt, ltb_nan]
      simp
    rw [inverseCdf, inverseCdfDefault, hs, h0]

theorem survived_degenerate (us : Fin N → ℝ) {l : Fin N → Fl} (h : Degenerate l) (i : Fin N) :
    survived us l i = false := by
  have hv : l i - Fl.vmax l = Fl.nan := by
    rcases h with h | h
    · rw [vmax_nan h, Fl.sub_nan]
    · have h1 : ∀ s : Finset (Fin N), Finset.fold Fl.max Fl.ninf l s = Fl.ninf := by
        intro s
        classical
        induction s using Finset.induction_on with
        | empty => rfl
        | insert a s ha ih => rw [Finset.fold_insert ha, ih, h]; rfl
      rw [Fl.vmax, h1, h]
      rfl
  rw [survived, hv, ← Bool.not_eq_true, Fl.leb_iff]
  cases Fl.log (Fl.fin (us i)) <;> exact fun h => h

/-- The resampling functions that always resample. -/
inductive Plain [NeZero N] (rng : Rng K) (pf : Platform) : Resampler K N X → Prop
  | multinomial : Plain rng pf (multinomial rng pf)
  | systematic : Plain rng pf (systematic rng pf)
  | killing : Plain rng pf (killing rng pf)

/-- **C87**, resampling. Degenerate weights are resampled to copies of the first particle with equal weights, even if
the weight of the first particle is zero. -/
theorem resampling_degenerate [NeZero N] (rng : Rng K) (pf : Platform) {R : Resampler K N X} (hR : Plain rng pf R)
    (k : K) {l : Fin N → Fl} (h : Degenerate l) (pos : Fin N → X) :
    R k l pos N = .ok ⟨fun _ => 0, fun _ => 0, fun _ => pos 0⟩ := by
  cases hR with
  | multinomial => simp only [multinomial, inverseCdf_degenerate pf _ h]; rfl
  | systematic => simp only [systematic, inverseCdf_degenerate pf _ h]; rfl
  | killing =>
    simp only [killing, multinomial, inverseCdf_degenerate pf _ h, dif_pos]
    simp only [survived_degenerate _ h]
    rfl

/-- **C87**, evidence. Whatever the resampling function, once a weight is NaN the log normalising constants are NaN
from that time on. -/
theorem nan_evidence_persists (rng : Prng K) (mdl : FKModel K X Inp) (dummy : X) (R : Resampler K N X) (u0 : Inp)
    (us : List Inp) (key : Option K) :
    ∃ states, (filter rng (particleFilter rng mdl dummy N R) (u0 :: us) false key).result = .ok states ∧
      ∀ t t' s s', 0 < t → t ≤ t' → states[t]? = some (.ok s) → states[t']? = some (.ok s') →
        (∃ i, s.logWeights i = Fl.nan) → s'.logZ = Fl.nan := by
  obtain ⟨states, h1, h2, h3⟩ := filter_step rng mdl dummy R u0 us key
  have hstep : ∀ t (_ : t < us.length) s s', states[t]? = some (.ok s) → states[t + 1]? = some (.ok s') →
      ∃ l : Fin N → Fl, s'.logZ = Fl.logsumexp s'.logWeights - Fl.logsumexp l + s.logZ := by
    intro t ht s s' hs hs'
    obtain ⟨s₂, k, h4, h5⟩ := h3 t ht s' hs'
    rw [hs] at h4
    have h6 : s = s₂ := Except.ok.inj (Option.some.inj h4)
    subst h6
    unfold filterCombine at h5
    cases hr : R (rng.nth s.key (N + 1) 0) s.logWeights s.particles N with
    | error e => simp only [hr] at h5; cases h5
    | ok r =>
      simp only [hr] at h5
      have h8 := (Except.ok.inj h5).symm
      subst h8
      exact ⟨_, rfl⟩
  refine ⟨states, h1, fun t t' s s' ht0 htt hs hs' hn => ?_⟩
  induction t', htt using Nat.le_induction generalizing s' with
  | base =>
    rw [hs] at hs'
    have h6 : s = s' := Except.ok.inj (Option.some.inj hs')
    subst h6
    obtain ⟨t, rfl⟩ : ∃ r, t = r + 1 := ⟨t - 1, by omega⟩
    have htl : t + 1 < states.length := (List.getElem?_eq_some_iff.mp hs).1
    obtain ⟨s₀, k, h4, -⟩ := h3 t (by omega) s hs
    obtain ⟨l, hl⟩ := hstep t (by omega) s₀ s h4 hs
    rw [hl, logsumexp_nan hn, Fl.nan_sub, Fl.nan_add]
  | succ t' htt ih =>
    have htl : t' + 1 < states.length := (List.getElem?_eq_some_iff.mp hs').1
    obtain ⟨s₀, k, h4, -⟩ := h3 t' (by omega) s' hs'
    obtain ⟨l, hl⟩ := hstep t' (by omega) s₀ s' h4 hs'
    rw [hl, ih s₀ h4, Fl.add_nan]

/-- **C87**, particles. With a function that always resamples, the particles after a time with degenerate weights all
descend from the first particle of that time, and their weights are just their new potentials. -/
theorem degenerate_particles_collapse [NeZero N] (rng : Rng K) (pf : Platform) (mdl : FKModel K X Inp) (dummy : X)
    {R : Resampler K N X} (hR : Plain rng pf R) (u0 : Inp) (us : List Inp) (key : Option K) :
    ∃ states, (filter rng.toPrng (particleFilter rng.toPrng mdl dummy N R) (u0 :: us) false key).result = .ok states ∧
      ∀ t (ht : t < us.length) s s', states[t]? = some (.ok s) → states[t + 1]? = some (.ok s') →
        Degenerate s.logWeights → s'.ancestors = (fun _ => 0) ∧
          ∀ i, (∃ k, s'.particles i = mdl.propagate k (s.particles 0) us[t]) ∧
            s'.logWeights i = mdl.logPotential (s.particles 0) (s'.particles i) us[t] := by
  obtain ⟨states, h1, h2, h3⟩ := filter_step rng.toPrng mdl dummy R u0 us key
  refine ⟨states, h1, fun t ht s s' hs hs' hd => ?_⟩
  obtain ⟨s₂, k, h4, h5⟩ := h3 t ht s' hs'
  rw [hs] at h4
  have h6 : s = s₂ := Except.ok.inj (Option.some.inj h4)
  subst h6
  unfold filterCombine at h5
  simp only [resampling_degenerate rng pf hR _ hd] at h5
  have h8 := (Except.ok.inj h5).symm
  subst h8
  exact ⟨rfl, fun i => ⟨⟨_, rfl⟩, by simp only [add_zero]⟩⟩

/-- **C87**, adaptive resampling. It never resamples weights with a NaN: the particles keep their NaN weights. -/
theorem adaptive_nan (R : Resampler K N X) (θ : ℝ) (k : K) {l : Fin N → Fl} (h : ∃ i, l i = Fl.nan)
    (pos : Fin N → X) : adaptive R θ k l pos N = .ok ⟨id, l, pos⟩ := by
  have h1 : logEss l = Fl.nan := by
    rw [logEss, logsumexp_nan h, Fl.mul_nan, Fl.nan_sub]
  simp only [adaptive, dif_pos, h1, ltb_nan]
  rfl

/-- **C87**, marginal particle filter. Once a weight is NaN, all weights and the log normalising constants are NaN from
the next time on. -/
theorem marginal_nan_persists [NeZero N] (rng : Prng K) (mdl : FKModel K X Inp) (dummy : X) (R : Resampler K N X)
    (u0 : Inp) (us : List Inp) (k : K) :
    ∃ states : List (Except Err (MPFState K X Inp N)),
      (filter rng (marginalParticleFilter rng mdl dummy N R) (u0 :: us) false (some k)).result = .ok states ∧
      ∀ (t t' : ℕ) (s s' : MPFState K X Inp N), t < t' → states[t]? = some (.ok s) → states[t']? = some (.ok s') →
        (∃ i, s.logWeights i = Fl.nan) → (∀ i, s'.logWeights i = Fl.nan) ∧ s'.logZ = Fl.nan := by
  obtain ⟨states, h1, h2, -, h3⟩ := marginal_run rng mdl dummy R u0 us k
  have hstep : ∀ t (_ : t < us.length) (s s' : MPFState K X Inp N), states[t]? = some (.ok s) → states[t + 1]? = some (.ok s') →
      (∃ i, s.logWeights i = Fl.nan) → (∀ i, s'.logWeights i = Fl.nan) ∧ s'.logZ = Fl.nan := by
    intro t ht s s' hs hs' hn
    have h4 := h3 t ht _ hs
    rw [hs'] at h4
    have h5 := (Option.some.inj h4).symm
    simp only [bind, Except.bind] at h5
    unfold marginalFilterCombine at h5
    cases hr : R (rng.nth s.key (N + 1) 0) s.logWeights s.particles N with
    | error e => simp only [hr] at h5; cases h5
    | ok r =>
      simp only [hr] at h5
      have h8 := (Except.ok.inj h5).symm
      subst h8
      have hw : ∀ g : Fin N → Fl, Fl.logsumexp (fun j => g j + (s.logWeights j - Fl.logsumexp s.logWeights)) =
          Fl.nan := fun g => logsumexp_nan ⟨0, by rw [logsumexp_nan hn, Fl.sub_nan, Fl.add_nan]⟩
      refine ⟨fun i => hw _, ?_⟩
      simp only [hw]
      rw [logsumexp_nan ⟨0, rfl⟩, Fl.nan_sub, Fl.nan_add]
  refine ⟨states, h1, fun t t' s s' htt hs hs' hn => ?_⟩
  induction t', htt using Nat.le_induction generalizing s' with
  | base =>
    have htl : t + 1 < states.length := (List.getElem?_eq_some_iff.mp hs').1
    exact hstep t (by omega) s s' hs hs' hn
  | succ t' htt ih =>
    have htl : t' + 1 < states.length := (List.getElem?_eq_some_iff.mp hs').1
    cases hs₀ : states[t']? with
    | none => rw [List.getElem?_eq_none_iff] at hs₀; omega
    | some e =>
      cases e with
      | error e =>
        have h4 := h3 t' (by omega) _ hs₀
        rw [hs'] at h4
        cases h4
      | ok s₀ => exact hstep t' (by omega) s₀ s' hs₀ hs' ⟨0, (ih s₀ hs₀).1 0⟩

/-- Non-vacuity: the potential is NaN in the first step and one in the second. All weights look healthy after the
second step; the log normalising constant is NaN. -/
example (rng : Rng K) (pf : Platform) (k : K) :
    ∃ (states : List (Except Err (PFState K ℕ Bool 2))) (s₁ s₂ : PFState K ℕ Bool 2),
      (filter rng.toPrng (particleFilter rng.toPrng
        (⟨fun _ _ => 0, fun _ x _ => x, fun _ _ b => if b then Fl.nan else 0⟩ : FKModel K ℕ Bool) 0 2
          (systematic rng pf)) [false, true, false] false (some k)).result = .ok states ∧
      states[1]? = some (.ok s₁) ∧ states[2]? = some (.ok s₂) ∧ (∃ i, s₁.logWeights i = Fl.nan) ∧
      (∀ i, s₂.logWeights i = 0) ∧ s₂.logZ = Fl.nan := by
  obtain ⟨mdl, hmdl⟩ : ∃ mdl : FKModel K ℕ Bool, mdl = ⟨fun _ _ => 0, fun _ x _ => x,
    fun _ _ b => if b then Fl.nan else 0⟩ := ⟨_, rfl⟩
  rw [← hmdl]
  have hrun := filter_pf_eq (rng := rng.toPrng) (mdl := mdl) (uses_systematic (N := 2) rng pf) 0 false [true, false] k
  obtain ⟨states, h1, h2⟩ := degenerate_particles_collapse rng pf mdl 0 (R := systematic rng pf) (N := 2) .systematic
    false [true, false] (some k)
  obtain ⟨states', h1', h2'⟩ := nan_evidence_persists rng.toPrng mdl 0 (systematic rng pf) (N := 2) false
    [true, false] (some k)
  have e := congrArg Outcome.result hrun
  rw [h1] at e h1'
  cases e; cases h1'
  have hn : ∃ i, (pfRun rng.toPrng mdl (fun k l => systematicIdx rng pf l 2 k) zeroLogits false [true, false] k
      1).logWeights i = Fl.nan := ⟨0, by rw [pfRun_succ _ _ _ 0 (by simp), hmdl]; rfl⟩
  refine ⟨_, _, _, h1, rfl, rfl, hn, fun i => ?_, h2' 1 2 _ _ (by norm_num) (by norm_num) rfl rfl hn⟩
  rw [((h2 1 (by simp) _ _ rfl rfl (.inl hn)).2 i).2, hmdl]
  rfl

end

end Cuthbert.SMC
