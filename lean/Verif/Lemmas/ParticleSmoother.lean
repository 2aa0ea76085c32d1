import Verif.Lemmas.SMCRun
import Verif.Props.Interface

/-!
# Runs of the particle smoother
-/

namespace Cuthbert.SMC
open Resampling Spec

noncomputable section

variable {K X Inp : Type} {N n : ℕ}

/-- The indices a backward sampling function returns. -/
abbrev BackIdx (K X : Type) (N : ℕ) :=
  K → (Fin N → X) → (n : ℕ) → (Fin n → X) → (Fin N → Fl) → (X → X → Fl) → (Fin n → Fin N) → Fin n → Fin N

/-- The backward sampling function never raises and returns the particles with indices `B`. -/
def SamplesBy (sampler : BackwardSampler K X N) (B : BackIdx K X N) : Prop :=
  ∀ k x0 n x1 l ld anc, sampler k x0 n x1 l ld anc =
    .ok (fun m => x0 (B k x0 n x1 l ld anc m), B k x0 n x1 l ld anc)

/-- The log density that is used between times `t` and `t + 1`, for the inputs `us` and the filling
`d`. -/
def usedDensity (logPotential : X → X → Inp → Fl) (us : List Inp) (d : Inp) (t : ℕ) : X → X → Fl :=
  fun x0 x1 => logPotential x0 x1 (us[t + 1]?.getD d)

/-- The indices `s` steps before the final time `T`, for the final indices `J` and the filter states
`F`. -/
def backIdx (B : BackIdx K X N) (F : ℕ → PFState K X Inp N) (ld : ℕ → X → X → Fl) (keys : ℕ → K) (T : ℕ)
    (J : Fin n → Fin N) : ℕ → Fin n → Fin N
  | 0 => J
  | s + 1 => B (keys (T - (s + 1))) (F (T - (s + 1))).particles n
      (fun m => (F (T - s)).particles (backIdx B F ld keys T J s m)) (F (T - (s + 1))).logWeights
      (ld (T - (s + 1))) (fun m => (F (T - s)).ancestors (backIdx B F ld keys T J s m))

/-- The smoother state at time `t` of a run with final state `q`. -/
def psAt (B : BackIdx K X N) (F : ℕ → PFState K X Inp N) (ld : ℕ → X → X → Fl) (keys : ℕ → K) (us : List Inp)
    (J : Fin n → Fin N) (q : PSState K X Inp N) (t : ℕ) : PSState K X Inp N :=
  if h : t < us.length then
    ⟨n, keys t, fun m => (F t).particles (backIdx B F ld keys us.length J (us.length - t) m),
      fun m => (F t).ancestors (backIdx B F ld keys us.length J (us.length - t) m), us[t],
      fun _ => -Fl.log (Fl.fin n)⟩
  else q

/-- The key of the smoother step at time `t`. -/
def backKey (rng : Prng K) (k : K) (T : ℕ) (t : ℕ) : K :=
  if h : t < T then rng.nth k (T + 1) ⟨t + 1, by omega⟩ else k

theorem smoother_ps_eq (rng : Prng K) (inputsOf : Except Err (PFState K X Inp N) → Inp)
    (dummy : Inp → Except Err Inp) (logPotential : X → X → Inp → Fl) {sampler : BackwardSampler K X N}
    {B : BackIdx K X N} (hB : SamplesBy sampler B) (R : Resampler K N X) (n : ℕ)
    (F : ℕ → PFState K X Inp N) (u : Inp) (us : List Inp) (k : K) {d d' : Inp} (hd : dummy u = .ok d)
    (hd' : dummy d = .ok d') {r : Resampled N n X}
    (hr : R (rng.nth (rng.nth k (us.length + 2) 0) 2 1) (F (us.length + 1)).logWeights
      (F (us.length + 1)).particles n = .ok r)
    (hpos : ∀ m, r.positions m = (F (us.length + 1)).particles (r.idx m)) :
    (smoother rng inputsOf dummy (particleSmoother rng dummy logPotential sampler R n)
      ((List.range (us.length + 2)).map fun t => .ok (F t)) (some (u :: us)) false (some k)).result =
      .ok ((List.range (us.length + 2)).map fun t => .ok
        (psAt B F (usedDensity logPotential (u :: us) d') (backKey rng k (us.length + 1)) (u :: us) r.idx
          ⟨n, rng.nth (rng.nth k (us.length + 2) 0) 2 0, r.positions,
            fun m => (F (us.length + 1)).ancestors (r.idx m), d', r.logits⟩ t)) := by
  have hlen : (u :: us).length + 1 =
      ((List.range (us.length + 2)).map fun t => (.ok (F t) : Except Err (PFState K X Inp N))).length := by
    simp
  obtain ⟨states, h1, h2⟩ := smoother_sequential_is_backward_run rng inputsOf dummy
    (particleSmoother rng dummy logPotential sampler R n)
    ((List.range (us.length + 2)).map fun t => .ok (F t)) (u :: us) (some k) hlen u rfl d hd
  rw [h1]
  have hl := h2.length_eq
  simp only [List.length_map, List.length_range] at hl
  refine congrArg Except.ok (List.ext_getElem? fun t => ?_)
  obtain ⟨q, hq⟩ : ∃ q : PSState K X Inp N, q = ⟨n, rng.nth (rng.nth k (us.length + 2) 0) 2 0, r.positions,
    fun m => (F (us.length + 1)).ancestors (r.idx m), d', r.logits⟩ := ⟨_, rfl⟩
  rw [← hq]
  obtain ⟨ld, hld⟩ : ∃ ld, ld = usedDensity logPotential (u :: us) d' := ⟨_, rfl⟩
  have hT : states[us.length + 1]? = some (.ok q) := by
    have h3 := h2.last (.ok (F (us.length + 1))) (by simp [List.getLast?_eq_getElem?])
    rw [List.getLast?_eq_getElem?, hl] at h3
    rw [show us.length + 2 - 1 = us.length + 1 by omega] at h3
    rw [h3, List.length_map, List.length_range, keyAt_nth _ _ _ _ (by omega)]
    change some (convertToSmoother rng dummy R n (F (us.length + 1)) (some d)
      (some (rng.nth k (us.length + 2) 0))) = _
    unfold convertToSmoother
    simp only [Option.getD_some, hd', hr, hq]
    rfl
  have key : ∀ s, s ≤ us.length + 1 → states[us.length + 1 - s]? = some (.ok
      (psAt B F ld (backKey rng k (us.length + 1)) (u :: us) r.idx q (us.length + 1 - s))) := by
    intro s
    induction s with
    | zero =>
      intro _
      rw [Nat.sub_zero, hT, psAt, dif_neg (by simp)]
    | succ s ih =>
      intro hs
      have ih := ih (by omega)
      obtain ⟨t, ht⟩ : ∃ t, t = us.length + 1 - (s + 1) := ⟨_, rfl⟩
      have ht1 : us.length + 1 - s = t + 1 := by omega
      have ht2 : t < us.length + 1 := by omega
      rw [ht1] at ih
      rw [← ht]
      have h3 := h2.step t (.ok (F t)) ((u :: us)[t]'(by simpa using ht2)) _
        (by rw [List.getElem?_map, List.getElem?_range (by omega)]; rfl)
        (List.getElem?_eq_getElem _) ih
      rw [h3]
      rw [List.length_map, List.length_range, keyAt_nth _ _ _ _ (by omega)]
      congr 1
      have hkey : backKey rng k (us.length + 1) t = rng.nth k (us.length + 2) ⟨t + 1, by omega⟩ := by
        rw [backKey, dif_pos ht2]
      -- the next state
      obtain ⟨next, hnext⟩ : ∃ next, next = psAt B F ld (backKey rng k (us.length + 1)) (u :: us) r.idx q
        (t + 1) := ⟨_, rfl⟩
      have hnext' : ∃ lw, next = ⟨n, (if h : t + 1 < us.length + 1 then backKey rng k (us.length + 1) (t + 1)
            else rng.nth (rng.nth k (us.length + 2) 0) 2 0),
          fun m => (F (t + 1)).particles (backIdx B F ld (backKey rng k (us.length + 1)) (us.length + 1) r.idx s m),
          fun m => (F (t + 1)).ancestors (backIdx B F ld (backKey rng k (us.length + 1)) (us.length + 1) r.idx s m),
          (u :: us)[t + 1]?.getD d', lw⟩ := by
        rw [hnext]
        by_cases h4 : t + 1 < us.length + 1
        · rw [psAt, dif_pos (by simpa using h4), dif_pos h4]
          have h5 : (u :: us)[t + 1]?.getD d' = (u :: us)[t + 1]'(by simpa using h4) := by
            rw [List.getElem?_eq_getElem (by simpa using h4), Option.getD_some]
          have h6 : (u :: us).length - (t + 1) = s := by simp only [List.length_cons]; omega
          rw [h6, h5]
          exact ⟨_, rfl⟩
        · have h7 : t = us.length := by omega
          have h8 : s = 0 := by omega
          rw [psAt, dif_neg (by simpa using h4), dif_neg h4, hq]
          have h5 : (u :: us)[t + 1]?.getD d' = d' := by
            rw [List.getElem?_eq_none (by simp; omega), Option.getD_none]
          rw [h5, h7, h8]
          refine ⟨r.logits, ?_⟩
          have h9 : r.positions = fun m => (F (us.length + 1)).particles (r.idx m) := funext hpos
          rw [h9]
          rfl
      rw [← hnext]
      obtain ⟨lw, hnext'⟩ := hnext'
      rw [hnext']
      change smootherCombine sampler logPotential _ _ = _
      unfold smootherCombine
      rw [dif_pos rfl]
      have h10 := hB (backKey rng k (us.length + 1) t) (F t).particles n
        (fun m => (F (t + 1)).particles (backIdx B F ld (backKey rng k (us.length + 1)) (us.length + 1) r.idx s m))
        (F t).logWeights (ld t)
        (fun m => (F (t + 1)).ancestors (backIdx B F ld (backKey rng k (us.length + 1)) (us.length + 1) r.idx s m))
      have h11 : us.length + 1 - t = s + 1 := by omega
      have h12 : psAt B F ld (backKey rng k (us.length + 1)) (u :: us) r.idx q t =
          ⟨n, backKey rng k (us.length + 1) t, fun m => (F t).particles (backIdx B F ld (backKey rng k (us.length + 1))
            (us.length + 1) r.idx (s + 1) m),
            fun m => (F t).ancestors (backIdx B F ld (backKey rng k (us.length + 1)) (us.length + 1) r.idx (s + 1) m),
            (u :: us)[t]'(by simpa using ht2), fun _ => -Fl.log (Fl.fin n)⟩ := by
        rw [psAt, dif_pos (by simpa using ht2)]
        simp only [List.length_cons, h11]
      rw [h12, backIdx, ← ht, ht1]
      rw [hld] at h10 ⊢
      rw [hkey] at h10 ⊢
      simp only [Fin.cast_refl]
      change (do
        let out ← sampler (rng.nth k (us.length + 2) ⟨t + 1, by omega⟩) (F t).particles n _ (F t).logWeights
          (usedDensity logPotential (u :: us) d' t) _
        _) = _
      rw [h10]
      rfl
  rw [← hld]
  rcases Nat.lt_or_ge t (us.length + 2) with h3 | h3
  · have h4 := key (us.length + 1 - t) (by omega)
    rw [show us.length + 1 - (us.length + 1 - t) = t by omega] at h4
    rw [h4, List.getElem?_map, List.getElem?_range h3]
    rfl
  · rw [List.getElem?_eq_none (by omega), List.getElem?_eq_none (by simpa using h3)]

end

end Cuthbert.SMC
