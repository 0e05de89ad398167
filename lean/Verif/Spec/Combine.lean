import Verif.Spec.Threads

/-! Specification vocabulary for `combine_ns_runs`. -/

namespace Nestcheck.Spec
variable {K : Type} [LinearOrder K]

/-- The rows of `thread_min_max` of several runs. -/
def allStarts (runs : List (Run K)) : List (WithBot K × K) := runs.flatMap (fun r => r.tmm.getD [])

/-- Runs which can be combined, `m` being the lowest of all their samples: each of
the documented format with positive live counts ending in one, no logl occurring
twice, parameter vectors of one dimension; the first live count of each run is the
number of its threads which start at or below `m`, and at most one thread of all
starts exactly on `m`. -/
structure Combinable (runs : List (Run K)) (m : K) : Prop where
  valid : ∀ r ∈ runs, Valid r
  pos : ∀ r ∈ runs, ∀ n ∈ r.nlive, 0 < n
  last : ∀ r ∈ runs, r.nlive.getLast? = some 1
  distinct : (runs.flatMap (·.logl)).Nodup
  dim : SameDim (runs.flatMap (·.theta))
  low_mem : m ∈ runs.flatMap (·.logl)
  low : ∀ l ∈ runs.flatMap (·.logl), m ≤ l
  first : ∀ r ∈ runs, r.nlive[0]? =
    some (((r.tmm.getD []).countP (fun p => decide (p.1 ≤ (m : WithBot K))) : Nat) : Int)
  onLow : (allStarts runs).countP (fun p => decide (p.1 = (m : WithBot K))) ≤ 1

/-- All samples of several runs as (logl, label, theta), the labels of each run moved
up by `n` plus the number of threads of the runs before it. -/
def relabelled : Nat → List (Run K) → List (K × Int × List K)
  | _, [] => []
  | n, r :: rs => r.logl.zip (((r.labels.getD []).map (· + (n : Int))).zip r.theta) ++
      relabelled (n + (r.tmm.getD []).length) rs

end Nestcheck.Spec
