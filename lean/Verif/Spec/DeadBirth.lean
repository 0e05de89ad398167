import Verif.Model.DataProcessing

/-
Specification vocabulary for dead-birth arrays.
-/

namespace Nestcheck.Spec
variable {K : Type} [LinearOrder K]

/-- A dead-birth array with distinct loglikelihoods and consistent births: `init`
(PolyChord's -1e30) lies below every loglikelihood and marks the points sampled
from the whole prior; every other point was born on the contour of some strictly
lower point. -/
structure Consistent (samples : List (Sample K)) (init : K) : Prop where
  nonempty : samples ≠ []
  distinct : (samples.map (·.logl)).Nodup
  below : ∀ s ∈ samples, init < s.logl
  births : ∀ s ∈ samples, s.birth = init ∨ ∃ t ∈ samples, s.birth = t.logl ∧ t.logl < s.logl

/-- The number of samples alive when the contour moves to `l`: born strictly below
`l`, dying at or above it. -/
def liveAt (samples : List (Sample K)) (l : K) : Nat :=
  samples.countP (fun s => decide (s.birth < l ∧ l ≤ s.logl))

/-- `i` and `j` are consecutive samples of one thread. -/
def Consecutive (labels : List Int) (i j : Nat) : Prop :=
  i < j ∧ ∃ k, labels[i]? = some k ∧ labels[j]? = some k ∧ ∀ m, i < m → m < j → labels[m]? ≠ some k

end Nestcheck.Spec
