import Verif.Spec.DeadBirth

/-
Specification of nested sampling as a transition system.  It describes the program which writes the dead-birth arrays
(PolyChord, MultiNest), not nestcheck, and mentions no function of nestcheck.
-/

namespace Nestcheck.Spec
variable {K : Type} [LinearOrder K]

/-- One iteration: the live point that is removed, the number of live points before the removal and the points that are added. -/
structure Iteration (K : Type) where
  dead : Sample K
  alive : Nat
  born : List (Sample K)
  deriving DecidableEq

/-- `Sampling live its final`: starting from the live points `live`, nested sampling can perform the iterations `its`, after which
the live points are `final`.  Each iteration removes the live point with the lowest loglikelihood and adds any number of points
(in a standard run one, and none while the remaining live points are used up) drawn from the region above its contour, which
becomes their birth contour. -/
inductive Sampling : List (Sample K) → List (Iteration K) → List (Sample K) → Prop
  | stop (live : List (Sample K)) : Sampling live [] live
  | step {live rest born final : List (Sample K)} {p : Sample K} {its : List (Iteration K)} :
      live.Perm (p :: rest) → (∀ q ∈ rest, p.logl < q.logl) → (∀ q ∈ born, q.birth = p.logl ∧ p.logl < q.logl) →
      Sampling (rest ++ born) its final → Sampling live (⟨p, live.length, born⟩ :: its) final

/-- The points with which nested sampling starts: drawn from the whole prior, recorded as born on the contour `init`. -/
structure FromPrior (live : List (Sample K)) (init : K) : Prop where
  nonempty : live ≠ []
  birth : ∀ q ∈ live, q.birth = init
  above : ∀ q ∈ live, init < q.logl

end Nestcheck.Spec
