import Verif.Spec.Adaptive

/-
Specification of an ideal nested sampler with a constant number of live points.  Nothing here mentions a function of nestcheck.
-/

namespace Nestcheck.Spec
variable {N : Nat}

noncomputable section

/-- A sampler with a constant number of live points: each point that is removed is replaced by one point, until the sampler decides to
stop; then the remaining live points are removed. -/
structure StaticSchedule (rule : Rule N) (start : Finset (Fin N)) : Prop extends StoppingSchedule rule start where
  single : ∀ hist, (rule hist).card ≤ 1
  stops : ∀ p hist, hist ≠ [] → rule hist = ∅ → rule (p :: hist) = ∅

end

end Nestcheck.Spec
