import Verif.Lemmas.Random
import Verif.Spec.Generate

/-!
# Ideal random numbers for the model generator exist

A key is an infinite tree of independent pairs of a uniform and a normal number.
-/

namespace Cuthbert
namespace Generate
open MeasureTheory ProbabilityTheory

noncomputable section

/-- A random key: a uniform and a normal number for every node of an infinite tree. -/
abbrev GKey := List ℕ → ℝ × ℝ

/-- The law of a random key. -/
def gkeyLaw : Measure GKey := Measure.infinitePi fun _ => unif.prod (gaussianReal 0 1)

instance : IsProbabilityMeasure gkeyLaw := by unfold gkeyLaw; infer_instance

/-- Disjoint parts of a random key are independent random keys. -/
theorem gkeyLaw_parts {ι : Type*} [Fintype ι] (g : ι → ℕ) (hg : Function.Injective g) :
    MeasurePreserving (fun (k : GKey) (i : ι) (p : List ℕ) => k (g i :: p)) gkeyLaw
      (Measure.pi fun _ => gkeyLaw) := by
  have hg' : Function.Injective fun q : ι × List ℕ => g q.1 :: q.2 := fun a b h => by
    simp only [List.cons.injEq] at h
    exact Prod.ext (hg h.1) h.2
  refine ⟨by fun_prop, ?_⟩
  have h1 := Measure.map_infinitePi_infinitePi_of_inj (P := fun _ : List ℕ => unif.prod (gaussianReal 0 1)) hg'
  have h2 := Measure.infinitePi_map_curry (fun (_ : ι) (_ : List ℕ) => unif.prod (gaussianReal 0 1))
  rw [← Measure.infinitePi_eq_pi]
  unfold gkeyLaw
  rw [← h2, ← h1, Measure.map_map (MeasurableEquiv.measurable _) (by fun_prop)]
  rfl

theorem gkey_unif : MeasurePreserving (fun k : GKey => Int.fract (k []).1) gkeyLaw unif :=
  fract_unif.comp (measurePreserving_fst.comp
    (measurePreserving_eval_infinitePi (fun _ : List ℕ => unif.prod (gaussianReal 0 1)) []))

theorem gkey_normal : MeasurePreserving (fun k : GKey => (k []).2) gkeyLaw (gaussianReal 0 1) :=
  measurePreserving_snd.comp
    (measurePreserving_eval_infinitePi (fun _ : List ℕ => unif.prod (gaussianReal 0 1)) [])

/-- A vector of numbers, each read off its own part of the key. -/
theorem gkey_vec {α : Type*} [MeasurableSpace α] {μ : Measure α} [IsProbabilityMeasure μ] {f : GKey → α}
    (hf : MeasurePreserving f gkeyLaw μ) (n : ℕ) :
    MeasurePreserving (fun (k : GKey) (i : Fin n) => f fun p => k ((i : ℕ) :: p)) gkeyLaw (Measure.pi fun _ => μ) :=
  (measurePreserving_pi (fun _ : Fin n => gkeyLaw) (fun _ => μ) fun _ => hf).comp
    (gkeyLaw_parts (fun i : Fin n => (i : ℕ)) fun _ _ h => Fin.ext h)

/-- Random numbers read off a random key. -/
def gkeyRng : GenRng GKey where
  split k n := (List.range n).map fun i p => k (i :: p)
  length_split k n := by simp
  uniformM k m n i j := Int.fract (k [i, j]).1
  uniformM_mem k m n i j := ⟨Int.fract_nonneg _, Int.fract_lt_one _⟩
  normal k n i := (k [i]).2
  normalM k m n i j := (k [i, j]).2

/-- Ideal random numbers exist. -/
theorem gkeyRng_ideal : IdealGen gkeyRng gkeyLaw where
  prob := inferInstance
  split n := by
    have : ∀ (k : GKey) (i : Fin n), gkeyRng.nth k n i = fun p => k ((i : ℕ) :: p) := fun k i => by
      simp [Prng.nth, gkeyRng]
    simp only [this]
    exact gkeyLaw_parts (fun i : Fin n => (i : ℕ)) fun _ _ h => Fin.ext h
  uniformM m n := gkey_vec (gkey_vec gkey_unif n) m
  normal n := gkey_vec gkey_normal n
  normalM m n := gkey_vec (gkey_vec gkey_normal n) m

end

end Generate
end Cuthbert
