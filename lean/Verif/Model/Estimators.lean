import Mathlib.Analysis.SpecialFunctions.Pow.Real
import Verif.Model.Weights

/-
Model of nestcheck/estimators.py and of `run_estimators`
(ns_run_utils.py:15-39), in exact real arithmetic.

Every estimator takes the run, `logw` (`none` for Python's `None`) and
`simulate`.  Arrays of different lengths raise `ValueError` (numpy would
broadcast arrays of length one; ignored).  `param_ind` is a natural number
(Python would accept negative ones).
-/

namespace Nestcheck
noncomputable section
variable {σ : Type}

/-- `if logw is None: logw = get_logw(ns_run, simulate=simulate)` -/
def logwOr (R : Rng σ ℝ) (r : Run ℝ) (logw : Option (List ℝ)) (simulate : Bool) : M σ (List ℝ) :=
  match logw with
  | some l => pure l
  | none => getLogw R r simulate

/-- `ns_run['theta'][:, ind]`: `IndexError` if there is no such column. -/
def column (thetas : List (List ℝ)) (ind : Nat) : Py (List ℝ) :=
  pyMap (fun t => match t[ind]? with
    | some x => .ok x
    | none => .error .index) thetas

/-- `np.sum(w * x)` -/
def dot (w x : List ℝ) : Py ℝ :=
  if w.length ≠ x.length then .error .value else .ok (List.zipWith (· * ·) w x).sum

/-- `count_samples` (estimators.py:32-52). -/
def countSamples (r : Run ℝ) : ℝ := r.logl.length

/-- `logz` (estimators.py:55-75). -/
def logz (R : Rng σ ℝ) (r : Run ℝ) (logw : Option (List ℝ)) (simulate : Bool) : M σ ℝ := do
  let logw ← logwOr R r logw simulate
  M.lift (logsumexp logw)

/-- `evidence` (estimators.py:78-98). -/
def evidence (R : Rng σ ℝ) (r : Run ℝ) (logw : Option (List ℝ)) (simulate : Bool) : M σ ℝ := do
  let logw ← logwOr R r logw simulate
  let l ← M.lift (logsumexp logw)
  pure (Real.exp l)

/-- The weighted mean in `param_mean` and `r_mean` (estimators.py:132-133, 228). -/
def weightedMean (w x : List ℝ) : Py ℝ := do
  let s ← dot w x
  npDiv s w.sum

/-- The body of `param_mean` after the weights are known (estimators.py:130-138);
`none` is nan. -/
def paramMeanOf (r : Run ℝ) (logw : List ℝ) (ind : Nat) (handle : Bool) : Py (Option ℝ) := do
  let w ← relWeights logw                                             -- 130
  match (do let x ← column r.theta ind; weightedMean w x) with        -- 132
  | .ok m => .ok (some m)
  | .error .index => if handle then .ok none else .error .index       -- 134-138
  | .error e => .error e

/-- `param_mean` (estimators.py:101-138). -/
def paramMean (R : Rng σ ℝ) (r : Run ℝ) (logw : Option (List ℝ)) (simulate : Bool) (ind : Nat)
    (handle : Bool) : M σ (Option ℝ) := do
  let logw ← logwOr R r logw simulate
  M.lift (paramMeanOf r logw ind handle)

/-- The loop of `np.interp` over the intervals between sample points: the last
point not above `x` decides. -/
def interpFrom (x : ℝ) : ℝ × ℝ → List (ℝ × ℝ) → ℝ
  | p, [] => p.2
  | p, q :: qs =>
    if x < q.1 then
      if x = p.1 then p.2 else (q.2 - p.2) / (q.1 - p.1) * (x - p.1) + p.2
    else interpFrom x q qs

/-- `np.interp(x, xp, fp)` for ascending `xp`: constant outside the range of
`xp`, linear between its points. -/
def interp (x : ℝ) (xp fp : List ℝ) : Py ℝ :=
  if xp.length ≠ fp.length then .error .value
  else match xp.zip fp with
    | [] => .error .value
    | p :: ps => .ok (if x < p.1 then p.2 else interpFrom x p ps)

/-- The sample points of `weighted_quantile` (estimators.py:345-346): the running
sum of the weights up to the middle of each one, as a fraction of the total. -/
def quantilePoints (w : List ℝ) (total : ℝ) : Py (List ℝ) :=
  pyMap (fun p : ℝ × ℝ => npDiv (p.1 - 0.5 * p.2) total) ((cumsum w).zip w)

/-- `weighted_quantile` (estimators.py:319-347). -/
def weightedQuantile (A : Argsort ℝ) (prob : ℝ) (values weights : List ℝ) : Py ℝ :=
  if ¬ (prob < 1 ∧ 0 < prob) then .error .assertion                   -- 339
  else if values.length ≠ weights.length then .error .assertion       -- 341
  else
    let inds := A.idx values                                          -- 344
    do
      let q ← quantilePoints (gather weights inds) weights.sum        -- 345-346
      interp prob q (gather values inds)                              -- 347

/-- `param_cred` (estimators.py:141-173). -/
def paramCred (A : Argsort ℝ) (R : Rng σ ℝ) (r : Run ℝ) (logw : Option (List ℝ)) (simulate : Bool)
    (prob : ℝ) (ind : Nat) : M σ ℝ := do
  let logw ← logwOr R r logw simulate
  M.lift (do
    let w ← relWeights logw                                           -- 171
    let x ← column r.theta ind
    weightedQuantile A prob x w)                                      -- 172

/-- `param_squared_mean` (estimators.py:176-203). -/
def paramSquaredMean (R : Rng σ ℝ) (r : Run ℝ) (logw : Option (List ℝ)) (simulate : Bool)
    (ind : Nat) : M σ ℝ := do
  let logw ← logwOr R r logw simulate
  M.lift (do
    let w ← relWeights logw                                           -- 201
    let w ← pyMap (fun x => npDiv x w.sum) w                          -- 202
    let x ← column r.theta ind
    dot w (x.map (· ^ 2)))                                            -- 203

/-- `np.sqrt(np.sum(ns_run['theta'] ** 2, axis=1))` (estimators.py:227, 257). -/
def radii (thetas : List (List ℝ)) : List ℝ :=
  thetas.map (fun t => Real.sqrt (t.map (· ^ 2)).sum)

/-- `r_mean` (estimators.py:206-228). -/
def rMean (R : Rng σ ℝ) (r : Run ℝ) (logw : Option (List ℝ)) (simulate : Bool) : M σ ℝ := do
  let logw ← logwOr R r logw simulate
  M.lift (do
    let w ← relWeights logw
    weightedMean w (radii r.theta))

/-- `r_cred` (estimators.py:231-258). -/
def rCred (A : Argsort ℝ) (R : Rng σ ℝ) (r : Run ℝ) (logw : Option (List ℝ)) (simulate : Bool)
    (prob : ℝ) : M σ ℝ := do
  let logw ← logwOr R r logw simulate
  M.lift (do
    let w ← relWeights logw
    weightedQuantile A prob (radii r.theta) w)

/-- The estimators of estimators.py with their keyword arguments
(`functools.partial`). -/
inductive Estimator where
  | count | logz | evidence
  | paramMean (ind : Nat) (handle : Bool)
  | paramCred (prob : ℝ) (ind : Nat)
  | paramSquaredMean (ind : Nat)
  | rMean
  | rCred (prob : ℝ)

/-- Calling an estimator; `none` is nan. -/
def Estimator.call (A : Argsort ℝ) (R : Rng σ ℝ) (e : Estimator) (r : Run ℝ)
    (logw : Option (List ℝ)) (simulate : Bool) : M σ (Option ℝ) :=
  match e with
  | .count => pure (some (countSamples r))
  | .logz => do let x ← Nestcheck.logz R r logw simulate; pure (some x)
  | .evidence => do let x ← Nestcheck.evidence R r logw simulate; pure (some x)
  | .paramMean ind handle => Nestcheck.paramMean R r logw simulate ind handle
  | .paramCred prob ind => do let x ← Nestcheck.paramCred A R r logw simulate prob ind; pure (some x)
  | .paramSquaredMean ind => do
    let x ← Nestcheck.paramSquaredMean R r logw simulate ind; pure (some x)
  | .rMean => do let x ← Nestcheck.rMean R r logw simulate; pure (some x)
  | .rCred prob => do let x ← Nestcheck.rCred A R r logw simulate prob; pure (some x)

/-- The functions a caller may pass in `estimator_list`:
`func(ns_run, logw=None, simulate=False)`. -/
abbrev EstFunc (σ : Type) := Run ℝ → Option (List ℝ) → Bool → M σ (Option ℝ)

/-- The loop of `run_estimators` (ns_run_utils.py:37-38). -/
def callEach (r : Run ℝ) (logw : List ℝ) : List (EstFunc σ) → M σ (List (Option ℝ))
  | [] => pure []
  | f :: fs => do
    let v ← f r (some logw) false
    let vs ← callEach r logw fs
    pure (v :: vs)

/-- `run_estimators` (ns_run_utils.py:15-39). -/
def runEstimators (R : Rng σ ℝ) (r : Run ℝ) (ests : List (EstFunc σ)) (simulate : Bool) :
    M σ (List (Option ℝ)) := do
  let logw ← getLogw R r simulate                                     -- 35
  callEach r logw ests                                                -- 36-39

end
end Nestcheck
