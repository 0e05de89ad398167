import Verif.Model.Nan
import Verif.Model.Estimators

/-
nestcheck/estimators.py for runs with nan among the parameters, in exact real arithmetic.  The loglikelihoods and live counts are
those of `r : Run ℝ`; `th` stands for `ns_run['theta']`, where `none` is nan.
-/

namespace Nestcheck
noncomputable section
variable {σ : Type}

/-- `np.sum` of an array: nan if there is one. -/
def nanSum (x : List (Option ℝ)) : Option ℝ :=
  if x.all Option.isSome then some (x.filterMap id).sum else none

/-- `ns_run['theta'][:, ind]`, as `column`. -/
def nanColumn (th : List (List (Option ℝ))) (ind : Nat) : Py (List (Option ℝ)) :=
  pyMap (fun t => match t[ind]? with
    | some x => .ok x
    | none => .error .index) th

/-- `np.sum(w * x)`; `w * nan` is nan for every number `w`. -/
def nanDot (w : List ℝ) (x : List (Option ℝ)) : Py (Option ℝ) :=
  if w.length ≠ x.length then .error .value
  else .ok (nanSum (List.zipWith (fun a b => b.map (a * ·)) w x))

/-- The weighted mean in `param_mean` and `r_mean` (estimators.py:132-133, 228). -/
def weightedMeanNan (w : List ℝ) (x : List (Option ℝ)) : Py (Option ℝ) := do
  let s ← nanDot w x
  match s with
  | none => .ok none
  | some s => (npDiv s w.sum).map some

/-- `param_mean` after the weights are known (estimators.py:130-138). -/
def paramMeanNanOf (th : List (List (Option ℝ))) (logw : List ℝ) (ind : Nat) (handle : Bool) : Py (Option ℝ) := do
  let w ← relWeights logw                                             -- 130
  match (do let x ← nanColumn th ind; weightedMeanNan w x) with       -- 132
  | .ok m => .ok m
  | .error .index => if handle then .ok none else .error .index       -- 134-138
  | .error e => .error e

/-- The loop of `np.interp`, as `interpFrom`: interpolation with nan at one end gives nan, except at the other end. -/
def interpFromNan (x : ℝ) : ℝ × Option ℝ → List (ℝ × Option ℝ) → Option ℝ
  | p, [] => p.2
  | p, q :: qs =>
    if x < q.1 then
      if x = p.1 then p.2
      else match p.2, q.2 with
        | some a, some b => some ((b - a) / (q.1 - p.1) * (x - p.1) + a)
        | _, _ => none
    else interpFromNan x q qs

/-- `np.interp(x, xp, fp)` where `fp` may contain nan. -/
def interpNan (x : ℝ) (xp : List ℝ) (fp : List (Option ℝ)) : Py (Option ℝ) :=
  if xp.length ≠ fp.length then .error .value
  else match xp.zip fp with
    | [] => .error .value
    | p :: ps => .ok (if x < p.1 then p.2 else interpFromNan x p ps)

/-- `weighted_quantile` (estimators.py:319-347). -/
def weightedQuantileNan (A : NanArgsort ℝ) (prob : ℝ) (values : List (Option ℝ)) (weights : List ℝ) : Py (Option ℝ) :=
  if ¬ (prob < 1 ∧ 0 < prob) then .error .assertion                   -- 339
  else if values.length ≠ weights.length then .error .assertion       -- 341
  else
    let inds := A.idx values                                          -- 344
    do
      let q ← quantilePoints (gather weights inds) weights.sum        -- 345-346
      interpNan prob q (gather values inds)                           -- 347

/-- `np.sqrt(np.sum(ns_run['theta'] ** 2, axis=1))` (estimators.py:227, 257). -/
def radiiNan (th : List (List (Option ℝ))) : List (Option ℝ) :=
  th.map (fun t => (nanSum (t.map (Option.map (· ^ 2)))).map Real.sqrt)

/-- Calling an estimator (estimators.py:32-258), as `Estimator.call`. -/
def Estimator.callNan (A : NanArgsort ℝ) (R : Rng σ ℝ) (e : Estimator) (r : Run ℝ) (th : List (List (Option ℝ)))
    (logw : Option (List ℝ)) (simulate : Bool) : M σ (Option ℝ) :=
  match e with
  | .count => pure (some (countSamples r))
  | .logz => do let x ← Nestcheck.logz R r logw simulate; pure (some x)
  | .evidence => do let x ← Nestcheck.evidence R r logw simulate; pure (some x)
  | .paramMean ind handle => do
    let logw ← logwOr R r logw simulate
    M.lift (paramMeanNanOf th logw ind handle)
  | .paramCred prob ind => do
    let logw ← logwOr R r logw simulate
    M.lift (do
      let w ← relWeights logw                                         -- 171
      let x ← nanColumn th ind
      weightedQuantileNan A prob x w)                                 -- 172
  | .paramSquaredMean ind => do
    let logw ← logwOr R r logw simulate
    M.lift (do
      let w ← relWeights logw                                         -- 201
      let w ← pyMap (fun x => npDiv x w.sum) w                        -- 202
      let x ← nanColumn th ind
      nanDot w (x.map (Option.map (· ^ 2))))                          -- 203
  | .rMean => do
    let logw ← logwOr R r logw simulate
    M.lift (do
      let w ← relWeights logw
      weightedMeanNan w (radiiNan th))
  | .rCred prob => do
    let logw ← logwOr R r logw simulate
    M.lift (do
      let w ← relWeights logw
      weightedQuantileNan A prob (radiiNan th) w)

end
end Nestcheck
