import Verif.Model.RoundingMean

/-
Model of `param_squared_mean`, `r_mean` and `evidence` (nestcheck/estimators.py) in rounded arithmetic with overflow.
-/

namespace Nestcheck
noncomputable section
variable (F : FloatArith)

/-- `x ** 2` for an array: numpy multiplies each element by itself. -/
def flSquares (xs : List EReal) : Py (List EReal) := pyMap (fun x => flMul F x x) xs

/-- `evidence` (estimators.py:78-98). -/
def flEvidence (logl : List EReal) (nlive : List Int) (us : Option (List EReal)) : Py EReal := do
  let z ← flLogz F logl nlive us
  pure (F.exp z)

/-- `param_squared_mean` (estimators.py:176-203) for a run whose parameter has the values `x`. -/
def flParamSquaredMean (logl : List EReal) (nlive : List Int) (us : Option (List EReal)) (x : List EReal) : Py EReal := do
  let logw ← flLogw F logl nlive us
  let w ← flRelWeights F logw                                         -- 201
  let t ← flSum F w
  let v ← pyMap (fun a => flQuot F a t) w                             -- 202
  let y ← flSquares F x
  if v.length ≠ y.length then .error .value
  else do
    let p ← pyMap (fun a : EReal × EReal => flMul F a.1 a.2) (v.zip y)
    flSum F p                                                         -- 203

/-- `np.sqrt(np.sum(theta ** 2, axis=1))` (estimators.py:227): `sqrt` is the library function and `order` the order of the
additions in each row, which depends on the layout of the array and need not be that of other sums. -/
def flRadii (sqrt : EReal → EReal) (order : SumTree) (theta : List (List EReal)) : Py (List EReal) :=
  pyMap (fun t => do
    let q ← flSquares F t
    let s ← flSumTree F q order
    pure (sqrt s)) theta

/-- `r_mean` (estimators.py:206-228). -/
def flRMean (sqrt : EReal → EReal) (order : SumTree) (logl : List EReal) (nlive : List Int) (us : Option (List EReal))
    (theta : List (List EReal)) : Py EReal := do
  let logw ← flLogw F logl nlive us
  let w ← flRelWeights F logw                                         -- 226
  let r ← flRadii F sqrt order theta                                  -- 227
  flWeightedMean F w r                                                -- 228

end
end Nestcheck
