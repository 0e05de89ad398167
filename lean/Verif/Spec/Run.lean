import Verif.Model.NsRun

/-
Specification vocabulary for runs, independent of the model's functions: it
mentions only the members of a run and positions in them.
-/

namespace Nestcheck.Spec
variable {K : Type} [LinearOrder K]

/-- Position `i` is the first sample of the thread labelled `k`. -/
def FirstOf (labels : List Int) (k : Int) (i : Nat) : Prop :=
  labels[i]? = some k ∧ ∀ j < i, labels[j]? ≠ some k

/-- Position `i` is the last sample of the thread labelled `k`. -/
def LastOf (labels : List Int) (k : Int) (i : Nat) : Prop :=
  labels[i]? = some k ∧ ∀ j > i, labels[j]? ≠ some k

/-- The documented format of a run (data_processing.py:1-58 and the docstrings of
the check_ns_run functions), with given thread members. -/
structure ValidWith (r : Run K) (labels : List Int) (tmm : List (WithBot K × K)) : Prop where
  labels_eq : r.labels = some labels
  tmm_eq : r.tmm = some tmm
  nlive_len : r.nlive.length = r.logl.length
  labels_len : labels.length = r.logl.length
  theta_len : r.theta.length = r.logl.length
  sorted : ∀ (i j : Nat) (x y : K), i < j → r.logl[i]? = some x → r.logl[j]? = some y → x ≤ y
  labels_range : ∀ k : Int, k ∈ labels ↔ 0 ≤ k ∧ k < tmm.length
  init : ∃ p ∈ tmm, p.1 = ⊥
  start_le : ∀ (k : Nat) (mm : WithBot K × K) (i : Nat) (l : K), tmm[k]? = some mm → FirstOf labels k i → r.logl[i]? = some l →
    mm.1 ≤ (l : WithBot K)
  end_eq : ∀ (k : Nat) (mm : WithBot K × K) (i : Nat) (l : K), tmm[k]? = some mm → LastOf labels k i → r.logl[i]? = some l →
    mm.2 = l

/-- The run has the documented format. -/
def Valid (r : Run K) : Prop := ∃ labels tmm, ValidWith r labels tmm

/-- No two samples have the same loglikelihood. -/
def Distinct (logl : List K) : Prop :=
  ∀ (i j : Nat) (x y : K), i < j → logl[i]? = some x → logl[j]? = some y → x ≠ y

end Nestcheck.Spec
