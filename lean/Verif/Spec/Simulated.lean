import Verif.Spec.Posterior
import Verif.Spec.Weights

/-
Specification of the random numbers with which nestcheck simulates the prior volumes of a run, seen together with those of the sampler
which made the run.  The generator is seeded independently of the sampler.
-/

namespace Nestcheck.Spec
open MeasureTheory
variable {σ : Type} {N : Nat} {E Ω : Type}

noncomputable section

/-- The next numbers which the generator delivers, however many of them are asked for at once, are `us`. -/
def Delivers (R : Rng σ ℝ) (w : World σ) (us : List ℝ) : Prop := ∀ n ≤ us.length, (R.uniform n w.rng).1 = us.take n

/-- The numbers `sims` which the generator will deliver are uniform, and independent of each other, of the draws of the volumes and of
the spots of the points of the sampler, which are as in `IidPoints`. -/
def IidSimulated [MeasurableSpace Ω] [MeasurableSpace E] (P : Measure Ω) (ν : Measure E) (draws sims : Ω → Fin N → ℝ) (spots : Ω → Fin N → E) : Prop :=
  P.map (fun ω => ((draws ω, sims ω), spots ω)) = ((Measure.pi fun _ => volume.restrict (Set.Ico (0 : ℝ) 1)).prod
    (Measure.pi fun _ => volume.restrict (Set.Ico (0 : ℝ) 1))).prod (Measure.pi fun _ => ν)

end

end Nestcheck.Spec
