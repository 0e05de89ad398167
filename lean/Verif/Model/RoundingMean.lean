import Verif.Model.Rounding

/-
Model of `param_mean` (nestcheck/estimators.py) in rounded arithmetic with overflow.
-/

namespace Nestcheck
noncomputable section
variable (F : FloatArith)

/-- `x * y`; zero times infinity is nan. -/
def flMul (x y : EReal) : Py EReal :=
  if (x = 0 ∧ (y = ⊤ ∨ y = ⊥)) ∨ ((x = ⊤ ∨ x = ⊥) ∧ y = 0) then .error .undefined else .ok (F.rnd (x * y))

/-- `x / y`; 0 / 0 and the quotient of infinities are nan, other quotients by zero infinite (zero is taken to be
positive). -/
def flQuot (x y : EReal) : Py EReal :=
  if (x = 0 ∧ y = 0) ∨ ((x = ⊤ ∨ x = ⊥) ∧ (y = ⊤ ∨ y = ⊥)) then .error .undefined
  else if y = 0 then .ok (if 0 < x then ⊤ else ⊥)
  else .ok (F.rnd (x / y))

/-- `np.sum(w_relative * x) / np.sum(w_relative)` (estimators.py:132-133) -/
def flWeightedMean (w x : List EReal) : Py EReal :=
  if w.length ≠ x.length then .error .value
  else do
    let p ← pyMap (fun a : EReal × EReal => flMul F a.1 a.2) (w.zip x)
    let s ← flSum F p
    let t ← flSum F w
    flQuot F s t

/-- `param_mean` (estimators.py:101-138) for a run whose parameter has the values `x`. -/
def flParamMean (logl : List EReal) (nlive : List Int) (us : Option (List EReal)) (x : List EReal) : Py EReal := do
  let logw ← flLogw F logl nlive us
  let w ← flRelWeights F logw                                         -- 130
  flWeightedMean F w x                                                -- 132-133

end
end Nestcheck
