import Mathlib.MeasureTheory.Constructions.Pi
import Mathlib.MeasureTheory.Measure.Prod
import Mathlib.MeasureTheory.Integral.IntervalIntegral.Basic
import Verif.Spec.Adaptive
import Verif.Spec.Volumes

/-
Specification of the parameters of the points of an ideal nested sampler.  A point is represented by the prior volume enclosed by its
contour and by its spot on the contour; the volume and the spot of a point drawn from the prior are independent.  Nothing here mentions
a function of nestcheck.
-/

namespace Nestcheck.Spec
open MeasureTheory
variable {N : Nat} {E Ω : Type}

noncomputable section

/-- The draws of the volumes are independent and uniform, and the spots of the points are independent of them and of each other, with
the distribution `ν`. -/
def IidPoints [MeasurableSpace Ω] [MeasurableSpace E] (P : Measure Ω) (ν : Measure E) (draws : Ω → Fin N → ℝ) (spots : Ω → Fin N → E) : Prop :=
  P.map (fun ω => (draws ω, spots ω)) = (Measure.pi fun _ => volume.restrict (Set.Ico (0 : ℝ) 1)).prod (Measure.pi fun _ => ν)

/-- An execution of nested sampling as in `AdaptiveExecution`, in which the points have parameters: `place x e` are the parameters of the
spot `e` on the contour which encloses the volume `x`. -/
structure PosteriorExecution (loglike : ℝ → ℝ) (place : ℝ → E → List ℝ) (rule : Rule N) (start : Finset (Fin N)) (u : Fin N → ℝ)
    (e : Fin N → E) (init : ℝ) (live : List (Sample ℝ)) (its : List (Iteration ℝ)) : Prop where
  prior : FromPrior live init
  run : Sampling live its []
  initial : (live.map (fun p => (p.logl, p.theta))).Perm (start.toList.map (fun b => (loglike (u b), place (u b) (e b))))
  added : List.Forall₂ (fun it (s : Removal N) => (it.born.map (fun p => (p.logl, p.theta))).Perm
    (s.born.toList.map (fun b => (loglike (s.volume * u b), place (s.volume * u b) (e b))))) its (removals rule start u)

/-- The mean under the posterior distribution of a quantity `q`, a function of the enclosed volume and of the spot on the contour. -/
def posteriorMean [MeasurableSpace E] (loglike : ℝ → ℝ) (ν : Measure E) (q : ℝ → E → ℝ) : ℝ :=
  (∫ x in (0 : ℝ)..1, Real.exp (loglike x) * ∫ e, q x e ∂ν) / ∫ x in (0 : ℝ)..1, Real.exp (loglike x)

/-- The probability under the posterior distribution that the quantity is at most `t`. -/
def posteriorCdf [MeasurableSpace E] (loglike : ℝ → ℝ) (ν : Measure E) (q : ℝ → E → ℝ) (t : ℝ) : ℝ :=
  posteriorMean loglike ν (fun x e => if q x e ≤ t then 1 else 0)

/-- `Q` is the only quantile of the quantity for the probability `prob`: the distribution function is below `prob` at all smaller numbers, and
above it at all larger ones. -/
def PosteriorQuantile [MeasurableSpace E] (loglike : ℝ → ℝ) (ν : Measure E) (q : ℝ → E → ℝ) (prob Q : ℝ) : Prop :=
  (∀ t < Q, posteriorCdf loglike ν q t < prob) ∧ ∀ t > Q, prob < posteriorCdf loglike ν q t

end

end Nestcheck.Spec
