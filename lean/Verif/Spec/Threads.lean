import Verif.Spec.Run

/-! Specification vocabulary for threads and combined runs. -/

namespace Nestcheck.Spec
variable {K α : Type} [LinearOrder K]

/-- The entries of a member of a run which belong to the thread labelled `k`. -/
def pick (labels : List Int) (k : Int) (xs : List α) : List α :=
  ((labels.zip xs).filter (fun p => decide (p.1 = k))).map (·.2)

/-- A single thread: one live point throughout, born at `start` strictly below its
first sample, strictly ascending, with the end recorded in its `thread_min_max`. -/
structure IsThread (t : Run K) (start : WithBot K) (stop : K) : Prop where
  nonempty : t.logl ≠ []
  strict : ∀ (i j : Nat) (x y : K), i < j → t.logl[i]? = some x → t.logl[j]? = some y → x < y
  ones : t.nlive = List.replicate t.logl.length 1
  theta_len : t.theta.length = t.logl.length
  labels_len : ∀ ls, t.labels = some ls → ls.length = t.logl.length
  tmm_eq : t.tmm = some [(start, stop)]
  last : t.logl.getLast? = some stop
  born : ∀ l ∈ t.logl, start < (l : WithBot K)

/-- Live points of a run at a contour `l`: the live count at the first sample which
is not below `l`, none after the last sample. -/
def liveOf (r : Run K) (l : K) : Int :=
  r.nlive.getD (r.logl.countP (fun x => decide (x < l))) 0

/-- All parameter vectors have the same dimension. -/
def SameDim (thetas : List (List K)) : Prop := ∀ s ∈ thetas, ∀ t ∈ thetas, s.length = t.length

end Nestcheck.Spec
