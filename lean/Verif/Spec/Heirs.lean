import Mathlib.Logic.Relation
import Verif.Spec.DeadBirth

/-
Threads of a dead-birth array, described without labels.
-/

namespace Nestcheck.Spec
variable {K : Type} [LinearOrder K]

/-- Of the points born on the contour of `s`, `t` is the one with the lowest loglikelihood. -/
def Heir (samples : List (Sample K)) (s t : Sample K) : Prop :=
  s ∈ samples ∧ t ∈ samples ∧ t.birth = s.logl ∧ ∀ u ∈ samples, u.birth = s.logl → t.logl ≤ u.logl

/-- `t` is `s`, or its heir, or the heir of its heir, ... -/
def Lineage (samples : List (Sample K)) (s t : Sample K) : Prop := Relation.ReflTransGen (Heir samples) s t

/-- The contour from which a point at the beginning of a lineage was sampled. -/
def startOf (init : K) (s : Sample K) : WithBot K := if s.birth = init then ⊥ else (s.birth : WithBot K)

end Nestcheck.Spec
