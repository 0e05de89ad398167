import Mathlib.Data.Real.Basic
import Mathlib.Data.Finset.Max
import Mathlib.MeasureTheory.Constructions.BorelSpace.Real
import Verif.Spec.Sampler

/-
Specification of an ideal nested sampler which decides adaptively how many points it adds (dynamic nested sampling, or several samplers
running side by side).  As in `Spec/Volumes`, a point is represented by the prior volume enclosed by its contour.  Nothing here mentions
a function of nestcheck.
-/

namespace Nestcheck.Spec
variable {N : Nat}

noncomputable section

/-- One iteration: the point that is removed, its volume, the number of live points before the removal and the points added. -/
structure Removal (N : Nat) where
  point : Fin N
  volume : ℝ
  alive : Nat
  born : Finset (Fin N)

/-- The live points that enclose the largest volume. -/
def tops (A : Finset (Fin N)) (x : Fin N → ℝ) : Finset (Fin N) := A.filter (fun a => ∀ b ∈ A, x b ≤ x a)

/-- The rule by which the sampler decides which points to draw next, from the points removed so far and their volumes (the last one
first). -/
abbrev Rule (N : Nat) := List (Fin N × ℝ) → Finset (Fin N)

/-- A rule which looks at the order of the removals only, not at the volumes. -/
def byOrder (f : List (Fin N) → Finset (Fin N)) : Rule N := fun hist => f (hist.map Prod.fst)

/-- Every decision of the rule is an event. -/
def MeasurableRule (rule : Rule N) : Prop :=
  ∀ (points : List (Fin N)) (S : Finset (Fin N)), MeasurableSet {v : Fin points.length → ℝ | rule (points.zip (List.ofFn v)) = S}

/-- `k` iterations, beginning with the live points `A`.  `x` are the volumes of the live points; for the points that have not been drawn
yet it is the fraction of the volume at their birth that they will enclose. -/
def iterate (rule : Rule N) : Nat → List (Fin N × ℝ) → Finset (Fin N) → (Fin N → ℝ) → List (Removal N)
  | 0, _, _, _ => []
  | k + 1, hist, A, x =>
    if h : (tops A x).Nonempty then
      let a := (tops A x).min' h
      let born := rule ((a, x a) :: hist)
      ⟨a, x a, A.card, born⟩ ::
        iterate rule k ((a, x a) :: hist) (A.erase a ∪ born) (fun b => if b ∈ born then x a * x b else x b)
    else []

/-- Whatever happens, the sampler has a live point to remove in each of `k` iterations and draws only points which it has not drawn
before; `D` are the points drawn so far. -/
def Feasible (rule : Rule N) : Nat → List (Fin N × ℝ) → Finset (Fin N) → Finset (Fin N) → Prop
  | 0, _, _, _ => True
  | k + 1, hist, A, D => A.Nonempty ∧ ∀ a ∈ A, ∀ t, Disjoint (rule ((a, t) :: hist)) D ∧
      Feasible rule k ((a, t) :: hist) (A.erase a ∪ rule ((a, t) :: hist)) (D ∪ rule ((a, t) :: hist))

/-- Whatever happens, the sampler draws only points which it has not drawn before; `D` are the points drawn so far.  It may run out of
live points, and so stop, at any time. -/
def Fresh (rule : Rule N) : Nat → List (Fin N × ℝ) → Finset (Fin N) → Finset (Fin N) → Prop
  | 0, _, _, _ => True
  | k + 1, hist, A, D => ∀ a ∈ A, ∀ t, Disjoint (rule ((a, t) :: hist)) D ∧
      Fresh rule k ((a, t) :: hist) (A.erase a ∪ rule ((a, t) :: hist)) (D ∪ rule ((a, t) :: hist))

/-- The fractions by which the volume shrinks, each to the power of the number of live points; the volume is `c` before. -/
def shrinkages : ℝ → List (Removal N) → List ℝ
  | _, [] => []
  | c, s :: l => (s.volume / c) ^ s.alive :: shrinkages s.volume l

/-- All iterations of a sampler which begins with the points `start` of the prior and draws at most `N` points altogether. -/
def removals (rule : Rule N) (start : Finset (Fin N)) (u : Fin N → ℝ) : List (Removal N) := iterate rule N [] start u

/-- A sampler which begins with some points, and decides how many points it draws, and so when it stops, while it runs. -/
structure StoppingSchedule (rule : Rule N) (start : Finset (Fin N)) : Prop where
  nonempty : start.Nonempty
  measurable : MeasurableRule rule
  fresh : Fresh rule N [] start start

/-- The sampler always has a live point to remove until all points have been drawn and removed. -/
structure AdaptiveSchedule (rule : Rule N) (start : Finset (Fin N)) : Prop where
  nonempty : 0 < N
  measurable : MeasurableRule rule
  feasible : Feasible rule N [] start start

/-- An execution of nested sampling in which the points are drawn as described, for a loglikelihood `loglike` as a function of the
enclosed volume: the initial points from the prior, and the points added in an iteration from inside the contour of the point
removed. -/
structure AdaptiveExecution (loglike : ℝ → ℝ) (rule : Rule N) (start : Finset (Fin N)) (u : Fin N → ℝ) (init : ℝ)
    (live : List (Sample ℝ)) (its : List (Iteration ℝ)) : Prop where
  prior : FromPrior live init
  run : Sampling live its []
  initial : (live.map (·.logl)).Perm (start.toList.map (fun b => loglike (u b)))
  added : List.Forall₂ (fun it (s : Removal N) => (it.born.map (·.logl)).Perm (s.born.toList.map (fun b => loglike (s.volume * u b)))) its
    (removals rule start u)

end

end Nestcheck.Spec
