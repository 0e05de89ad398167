import Mathlib.Data.Real.Basic
import Verif.Spec.Sampler

/-
Specification of an ideal nested sampler in terms of prior volumes.  A point of the prior is represented by the prior volume enclosed
by its likelihood contour: such volumes are uniform on [0, 1] for points drawn from the prior, and uniform on [0, t] for points drawn
from the prior inside the contour which encloses the volume t.  Nothing here mentions a function of nestcheck.
-/

namespace Nestcheck.Spec

noncomputable section

/-- The largest of the numbers, and the others. -/
def takeMax : List ℝ → ℝ × List ℝ
  | [] => (0, [])
  | [x] => (x, [])
  | x :: y :: l =>
    if (takeMax (y :: l)).1 ≤ x then (x, y :: l) else ((takeMax (y :: l)).1, x :: (takeMax (y :: l)).2)

/-- The iterations of the sampler: the volume of the point that is removed, the number of live points before the removal and the
volumes of the points that are added.  `adds` are the numbers of points added in the iterations, `live` the volumes of the live
points; `draws` are the random numbers with which the points are drawn, each being a fraction of the volume inside the contour. -/
def sampleVolumes : List Nat → List ℝ → List ℝ → List (ℝ × Nat × List ℝ)
  | [], _, _ => []
  | k :: ks, live, draws =>
    let t := (takeMax live).1
    let born := (draws.take k).map (t * ·)
    (t, live.length, born) :: sampleVolumes ks ((takeMax live).2 ++ born) (draws.drop k)

/-- The numbers of live points before each iteration. -/
def liveCounts : Nat → List Nat → List Nat
  | _, [] => []
  | n, k :: ks => n :: liveCounts (n - 1 + k) ks

/-- The sampler is started with `n` points and, adding `adds` points in its iterations, always has a live point to remove and finally
uses up all of them. -/
structure VolumeSchedule (n : Nat) (adds : List Nat) : Prop where
  start : 0 < n
  alive : ∀ m ∈ liveCounts n adds, 0 < m
  finish : adds.length = n + adds.sum

/-- The volumes of the points in the order in which they are removed. -/
def deadVolumes (n : Nat) (adds : List Nat) (draws : List ℝ) : List ℝ :=
  (sampleVolumes adds (draws.take n) (draws.drop n)).map (·.1)

/-- An execution of nested sampling in which all points are drawn as described, for a loglikelihood `loglike` as a function of the
enclosed volume: the initial points from the prior, and the points added in an iteration from inside the contour of the point
removed. -/
structure IdealExecution (loglike : ℝ → ℝ) (n : Nat) (adds : List Nat) (draws : List ℝ) (init : ℝ) (live : List (Sample ℝ))
    (its : List (Iteration ℝ)) : Prop where
  start : FromPrior live init
  run : Sampling live its []
  initial : (live.map (·.logl)).Perm ((draws.take n).map loglike)
  added : List.Forall₂ (fun it (s : ℝ × Nat × List ℝ) => (it.born.map (·.logl)).Perm (s.2.2.map loglike)) its
    (sampleVolumes adds (draws.take n) (draws.drop n))

end

end Nestcheck.Spec
