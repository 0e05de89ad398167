import Verif.Model.Py

/-! Specification vocabulary for the use of numpy's global random state. -/

namespace Nestcheck

variable {σ α β : Type}

/-- The effect of a call on everything but the random state is the same in every
random state: same value or exception, same warnings. -/
def Spec.RngIndependent (x : M σ α) : Prop :=
  ∀ s s' ws, (x ⟨s, ws⟩).1 = (x ⟨s', ws⟩).1 ∧ (x ⟨s, ws⟩).2.warns = (x ⟨s', ws⟩).2.warns

/-- A call which returns leaves the random state as it was. -/
def Spec.RngRestored (x : M σ α) : Prop :=
  ∀ w a w', x w = (.ok a, w') → w'.rng = w.rng

end Nestcheck
