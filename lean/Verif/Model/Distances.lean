import Mathlib.Analysis.SpecialFunctions.Pow.Real
import Verif.Model.ErrorAnalysis

/-
Model of `statistical_distances` (error_analysis.py:397-423) with the three distances of scipy.stats
it calls, as scipy defines them (`ks_2samp(...).statistic`, `wasserstein_distance` and `energy_distance` for
unweighted samples).  The p-value of `ks_2samp` remains a parameter.  Samples are lists of real numbers.
-/

namespace Nestcheck
noncomputable section

/-- `np.searchsorted(np.sort(xs), t, side='right')`: the number of samples up to `t`. -/
def searchRight (xs : List ℝ) (t : ℝ) : Nat := (xs.filter (fun x => decide (x ≤ t))).length

/-- `np.searchsorted(...) / n`, the empirical distribution function in `ks_2samp` and `_cdf_distance`. -/
def ecdf (xs : List ℝ) (t : ℝ) : ℝ := (searchRight xs t : ℝ) / (xs.length : ℝ)

/-- `scipy.stats.ks_2samp(x, y).statistic`: `np.max(np.absolute(cdf1 - cdf2))` over all samples. -/
def ksStatistic (x y : List ℝ) : Py ℝ :=
  if x = [] ∨ y = [] then .error .value
  else match amax ((x ++ y).map (fun t => |ecdf x t - ecdf y t|)) with
    | some d => .ok d
    | none => .error .value

/-- `all_values` in scipy's `_cdf_distance`: the samples of both in order. -/
def allValues (x y : List ℝ) : List ℝ := (x ++ y).insertionSort (· ≤ ·)

/-- Each of `all_values[:-1]` with the one after it. -/
def neighbours (z : List ℝ) : List (ℝ × ℝ) := z.zip z.tail

/-- `scipy.stats.wasserstein_distance(x, y)`: `np.sum(np.multiply(np.abs(u_cdf - v_cdf), deltas))`. -/
def earthMover (x y : List ℝ) : Py ℝ :=
  if x = [] ∨ y = [] then .error .value
  else .ok (((neighbours (allValues x y)).map (fun p => |ecdf x p.1 - ecdf y p.1| * (p.2 - p.1))).sum)

/-- `scipy.stats.energy_distance(x, y)`: `np.sqrt(2) * np.sqrt(np.sum(np.multiply(np.square(u_cdf - v_cdf), deltas)))`. -/
def energyDistance (x y : List ℝ) : Py ℝ :=
  if x = [] ∨ y = [] then .error .value
  else .ok (Real.sqrt 2 *
    Real.sqrt ((neighbours (allValues x y)).map (fun p => (ecdf x p.1 - ecdf y p.1) ^ 2 * (p.2 - p.1))).sum)

/-- `statistical_distances` (error_analysis.py:397-423), given the p-value. -/
def statDistances (pvalue : List ℝ → List ℝ → ℝ) (x y : List ℝ) (emd energy : Bool) : Py (List ℝ) := do
  let ks ← ksStatistic x y
  let e ← if emd then (earthMover x y).map (fun v => [v]) else .ok []
  let g ← if energy then (energyDistance x y).map (fun v => [v]) else .ok []
  .ok ([pvalue x y, ks] ++ e ++ g)

/-- The values of the three functions, 0 where they raise. -/
def scipyDistances (pvalue : List ℝ → List ℝ → ℝ) : Distances (List ℝ) ℝ where
  ksPvalue := pvalue
  ksStatistic x y := (ksStatistic x y).toOption.getD 0
  earthMover x y := (earthMover x y).toOption.getD 0
  energy x y := (energyDistance x y).toOption.getD 0

end
end Nestcheck
