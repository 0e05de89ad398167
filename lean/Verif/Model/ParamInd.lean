import Verif.Model.Estimators

/-
The estimators of nestcheck/estimators.py with any integer as `param_ind`.
-/

namespace Nestcheck
noncomputable section
variable {σ : Type}

/-- `t[ind]` for one row of the parameter array: a negative index counts from the end. -/
def pyIndex (t : List ℝ) (ind : Int) : Py ℝ :=
  match (if ind < 0 then (if -ind ≤ t.length then t[(t.length + ind).toNat]? else none) else t[ind.toNat]?) with
  | some x => .ok x
  | none => .error .index

/-- `ns_run['theta'][:, ind]` (estimators.py:132, 172, 203). -/
def columnAt (thetas : List (List ℝ)) (ind : Int) : Py (List ℝ) := pyMap (fun t => pyIndex t ind) thetas

/-- `param_mean` (estimators.py:101-138). -/
def paramMeanAt (R : Rng σ ℝ) (r : Run ℝ) (logw : Option (List ℝ)) (simulate : Bool) (ind : Int)
    (handle : Bool) : M σ (Option ℝ) := do
  let logw ← logwOr R r logw simulate
  M.lift (do
    let w ← relWeights logw                                           -- 130
    match (do let x ← columnAt r.theta ind; weightedMean w x) with    -- 132
    | .ok m => .ok (some m)
    | .error .index => if handle then .ok none else .error .index     -- 134-138
    | .error e => .error e)

/-- `param_cred` (estimators.py:141-173). -/
def paramCredAt (A : Argsort ℝ) (R : Rng σ ℝ) (r : Run ℝ) (logw : Option (List ℝ)) (simulate : Bool)
    (prob : ℝ) (ind : Int) : M σ ℝ := do
  let logw ← logwOr R r logw simulate
  M.lift (do
    let w ← relWeights logw                                           -- 171
    let x ← columnAt r.theta ind
    weightedQuantile A prob x w)                                      -- 172

/-- `param_squared_mean` (estimators.py:176-203). -/
def paramSquaredMeanAt (R : Rng σ ℝ) (r : Run ℝ) (logw : Option (List ℝ)) (simulate : Bool)
    (ind : Int) : M σ ℝ := do
  let logw ← logwOr R r logw simulate
  M.lift (do
    let w ← relWeights logw                                           -- 201
    let w ← pyMap (fun x => npDiv x w.sum) w                          -- 202
    let x ← columnAt r.theta ind
    dot w (x.map (· ^ 2)))                                            -- 203

end
end Nestcheck
