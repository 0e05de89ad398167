import Mathlib.Algebra.BigOperators.Fin
import Verif.Spec.Posterior

/-
Several ideal nested samplers which run independently of each other.  Nothing here mentions a function of nestcheck.
-/

namespace Nestcheck.Spec
variable {m : Nat} {n : Fin m → Nat} {E : Type}

noncomputable section

/-- What belongs to the points of all samplers, one sampler after the other. -/
def together {α : Type} (f : ∀ i, Fin (n i) → α) : Fin (∑ i, n i) → α :=
  fun j => f (finSigmaFinEquiv.symm j).1 (finSigmaFinEquiv.symm j).2

/-- Executions of several samplers, each with a rule, starting points, draws and spots of its own, for the same loglikelihood. -/
def SeveralExecutions (loglike : ℝ → ℝ) (place : ℝ → E → List ℝ) (rule : ∀ i, Rule (n i)) (start : ∀ i, Finset (Fin (n i)))
    (u : ∀ i, Fin (n i) → ℝ) (e : ∀ i, Fin (n i) → E) (init : ℝ) (live : Fin m → List (Sample ℝ)) (its : Fin m → List (Iteration ℝ)) : Prop :=
  ∀ i, PosteriorExecution loglike place (rule i) (start i) (u i) (e i) init (live i) (its i)

/-- The sampler adds at most one point when it removes its first point. -/
def SlowStart {N : Nat} (rule : Rule N) (start : Finset (Fin N)) : Prop := ∀ a ∈ start, ∀ t, (rule [(a, t)]).card ≤ 1

end

end Nestcheck.Spec
