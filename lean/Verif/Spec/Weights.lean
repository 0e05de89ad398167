import Mathlib.Analysis.SpecialFunctions.Log.Basic
import Mathlib.Analysis.SpecialFunctions.Pow.Real
import Verif.Model.NsRun

/-! Specification vocabulary for prior volumes and weights. -/

namespace Nestcheck.Spec
noncomputable section

/-- Log prior volumes after each step of shrinkage: the sums of the first steps. -/
def positions (steps : List ℝ) : List ℝ :=
  (List.range steps.length).map (fun i => (steps.take (i + 1)).sum)

/-- The expected shrinkage with `n` live points is -1/n. -/
def expectedSteps (nlive : List Int) : List ℝ := nlive.map (fun n : Int => -1 / (n : ℝ))

/-- The simulated shrinkage with `n` live points and uniform draw `u` is log(u)/n,
the logarithm of the largest of `n` uniform draws. -/
def simulatedSteps (us : List ℝ) (nlive : List Int) : List ℝ :=
  List.zipWith (fun u (n : Int) => Real.log u / (n : ℝ)) us nlive

/-- The unit interval of prior volume is divided at the midpoints between
consecutive points `Xs`. -/
def edges (Xs : List ℝ) : List ℝ :=
  1 :: (List.zipWith (fun a b => (a + b) / 2) Xs Xs.tail ++ [0])

/-- The prior volume closest to each point. -/
def shells (Xs : List ℝ) : List ℝ := List.zipWith (fun a b => a - b) (edges Xs) (edges Xs).tail

/-- The prior volumes of the samples of a run with live counts `nlive`: expected, or
simulated with uniform draws `us`. -/
def priorVolumes (sim : Bool) (us : List ℝ) (nlive : List Int) : List ℝ :=
  shells ((positions (if sim then simulatedSteps us nlive else expectedSteps nlive)).map Real.exp)

/-- A run with at least one sample and positive live counts, one for each sample. -/
structure Weighable (r : Run ℝ) : Prop where
  nonempty : r.logl ≠ []
  pos : ∀ n ∈ r.nlive, 0 < n
  len : r.nlive.length = r.logl.length

/-- The weights of the samples: the exponentials of the given log weights, or, when
none are given, prior volume times likelihood. -/
def sampleWeights (r : Run ℝ) (logw : Option (List ℝ)) (sim : Bool) (us : List ℝ) : List ℝ :=
  match logw with
  | some lw => lw.map Real.exp
  | none => List.zipWith (fun v l => v * Real.exp l) (priorVolumes sim us r.nlive) r.logl

/-- Weights can be found for the run: given ones of the right number, or from
positive live counts (and, if simulated, positive uniform draws `us`). -/
def Usable (r : Run ℝ) (logw : Option (List ℝ)) (sim : Bool) (us : List ℝ) : Prop :=
  r.theta.length = r.logl.length ∧ r.logl ≠ [] ∧
  match logw with
  | some lw => lw.length = r.logl.length
  | none => Weighable r ∧ (sim = true → ∀ u ∈ us, 0 < u)

/-- Weighted mean. -/
def mean (ws xs : List ℝ) : ℝ := (List.zipWith (· * ·) ws xs).sum / ws.sum

end
end Nestcheck.Spec

namespace Nestcheck.Spec
noncomputable section
variable {σ : Type}

/-- The world after an estimator has found its weights: the only effect is a draw of
uniform numbers, and only if weights are simulated. -/
def afterWeights (R : Rng σ ℝ) (r : Run ℝ) (logw : Option (List ℝ)) (sim : Bool) (w : World σ) : World σ :=
  { w with rng := if logw = none ∧ sim = true then (R.uniform r.nlive.length w.rng).2 else w.rng }

/-- The fraction of the total weight below the middle of sample `p = (value, weight)`. -/
def position (ps : List (ℝ × ℝ)) (p : ℝ × ℝ) : ℝ :=
  (((ps.filter (fun q => decide (q.1 < p.1))).map (·.2)).sum + p.2 / 2) / (ps.map (·.2)).sum

end
end Nestcheck.Spec

namespace Nestcheck.Spec
noncomputable section
variable {σ : Type}

/-- The distance of a sample from the origin. -/
def radius (t : List ℝ) : ℝ := Real.sqrt (t.map (fun x => x * x)).sum

end
end Nestcheck.Spec
