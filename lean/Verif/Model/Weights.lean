import Mathlib.Analysis.SpecialFunctions.Log.Basic
import Verif.Model.NsRun

/-
Model of the weight calculations of nestcheck/ns_run_utils.py, in exact real
arithmetic (floating point rounding, overflow and underflow are not modelled).
-/

namespace Nestcheck
noncomputable section
variable {σ : Type}

/-- `np.log(x)`; `undefined` where numpy gives -inf or nan. -/
def npLog (x : ℝ) : Py ℝ := if 0 < x then .ok (Real.log x) else .error .undefined

/-- `x / y`; `undefined` where numpy gives inf or nan. -/
def npDiv (x y : ℝ) : Py ℝ := if y = 0 then .error .undefined else .ok (x / y)

/-- An operation applied to every element of an array. -/
def pyMap {α β : Type} (f : α → Py β) : List α → Py (List β)
  | [] => .ok []
  | x :: xs => do
    let y ← f x
    let ys ← pyMap f xs
    pure (y :: ys)

/-- `scipy.special.logsumexp(a)`: the maximum is subtracted before
exponentiating.  `ValueError` for an empty array. -/
def logsumexp (xs : List ℝ) : Py ℝ :=
  match amax xs with
  | none => .error .value
  | some m => do
    let l ← npLog ((xs.map (fun x => Real.exp (x - m))).sum)
    pure (l + m)

/-- `log_subtract` (ns_run_utils.py:408-426). -/
def logSubtract (loga logb : ℝ) : Py ℝ := do
  let l ← npLog (1 - Real.exp (logb - loga))
  pure (loga + l)

/-- `-1 * (nlive.astype(float) ** -1)` (ns_run_utils.py:404) -/
def expectedStep (n : Int) : Py ℝ := do
  let x ← npDiv 1 (n : ℝ)
  pure (-1 * x)

/-- `np.log(u) / nlive` (ns_run_utils.py:402) -/
def simulatedStep (un : ℝ × Int) : Py ℝ := do
  let l ← npLog un.1
  npDiv l (un.2 : ℝ)

/-- `get_logx` (ns_run_utils.py:368-405). -/
def getLogx (R : Rng σ ℝ) (nlive : List Int) (simulate : Bool) : M σ (List ℝ) :=
  match amin nlive with
  | none => M.raise .value                                            -- 399, empty array
  | some m => do
    M.assert (decide (0 < m))                                         -- 399
    let steps ← (if simulate then do
        let us ← M.draw (R.uniform nlive.length)                      -- 402
        M.lift (pyMap simulatedStep (us.zip nlive))
      else M.lift (pyMap expectedStep nlive) : M σ (List ℝ))          -- 404
    pure (cumsum steps)                                               -- 405

/-- The weights of the points between the first and the last (ns_run_utils.py:325):
`log_subtract(logx[:-2], logx[2:]) - np.log(2)`. -/
def innerWeights (logx : List ℝ) : Py (List ℝ) :=
  pyMap (fun p : ℝ × ℝ => do
    let l ← logSubtract p.1 p.2
    pure (l - Real.log 2)) (logx.dropLast.dropLast.zip (logx.drop 2))

/-- The log prior volumes of the points (ns_run_utils.py:323-332) given their
positions: `IndexError` for less than two points. -/
def volumes (logx : List ℝ) : Py (List ℝ) :=
  match logx[0]?, logx[1]?, logx[logx.length - 2]?, logx.getLast? with
  | some x0, some x1, some y1, some y0 => do
    let inner ← innerWeights logx                                     -- 325
    let s ← logsumexp [x0, x1]
    let first ← logSubtract 0 (s - Real.log 2)                        -- 328
    let t ← logsumexp [y1, y0]
    pure (first :: inner ++ [t - Real.log 2])                         -- 332
  | _, _, _, _ => .error .index

/-- `get_logw` (ns_run_utils.py:298-343).  Members of different lengths raise
`ValueError` (numpy would broadcast a live count array of length three over the
inner points, and would accept some combinations of lengths one and two;
ignored). -/
def getLogw (R : Rng σ ℝ) (r : Run ℝ) (simulate : Bool) : M σ (List ℝ) := do
  let logx ← getLogx R r.nlive simulate                               -- 322
  if r.logl.length ≠ logx.length then M.raise .value                  -- 325
  else match volumes logx with
    | .ok logw => pure (List.zipWith (· + ·) logw r.logl)             -- 334
    | .error .index =>                                                -- 336
      if r.logl.length = 1 then pure r.logl                           -- 341
      else M.raise .index
    | .error e => M.raise e

/-- `np.exp(logw - logw.max())`; `ValueError` for an empty array. -/
def relWeights (logw : List ℝ) : Py (List ℝ) :=
  match amax logw with
  | none => .error .value
  | some m => .ok (logw.map (fun x => Real.exp (x - m)))

/-- `get_w_rel` (ns_run_utils.py:346-365). -/
def getWRel (R : Rng σ ℝ) (r : Run ℝ) (simulate : Bool) : M σ (List ℝ) := do
  let logw ← getLogw R r simulate
  M.lift (relWeights logw)

end
end Nestcheck
