import Verif.Spec.Volumes

/-
Specification of several ideal nested samplers which run independently of each other.  Nothing here mentions a function of nestcheck.
-/

namespace Nestcheck.Spec

noncomputable section

/-- What a sampler is going to do: the number of points with which it starts and the numbers of points it adds in its iterations. -/
abbrev SamplerPlan := Nat × List Nat

/-- The number of points a sampler draws. -/
def SamplerPlan.size (p : SamplerPlan) : Nat := p.1 + p.2.sum

/-- The volumes of the points of all samplers, from the outside to the inside; `draws` are the random numbers of each sampler. -/
def mergedVolumes (ps : List SamplerPlan) (draws : List (List ℝ)) : List ℝ :=
  (List.zipWith (fun p d => deadVolumes p.1 p.2 d) ps draws).flatten.mergeSort (fun a b => decide (b ≤ a))

/-- The number of live points of all samplers together at each of these volumes: each sampler has the live points which it has after
removing all its points that enclose larger volumes. -/
def mergedLive (ps : List SamplerPlan) (draws : List (List ℝ)) : List Nat :=
  (mergedVolumes ps draws).map fun x =>
    (List.zipWith (fun p d => (liveCounts p.1 p.2).getD ((deadVolumes p.1 p.2 d).countP (fun v => decide (x < v))) 0) ps draws).sum

end

end Nestcheck.Spec
