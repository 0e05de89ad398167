import Mathlib.Data.EReal.Operations
import Mathlib.Data.EReal.Inv
import Verif.Model.Weights

/-
Model of the weight calculations of nestcheck/ns_run_utils.py and of `logz` in rounded
arithmetic with overflow.  A number is an extended real; nan stops the calculation with
`undefined`.  `+`, `-` and `/` give the exact result rounded by a function of which only
monotonicity, idempotence, representable negatives and exactness on a range of integers are
assumed; of the library functions `exp` and `log` that the latter is monotone, a few values and
bounds.
-/

namespace Nestcheck
noncomputable section

/-- The order of the additions in `np.sum`: the leaves are indexes of the array. -/
inductive SumTree where
  | leaf (i : Nat)
  | node (l r : SumTree)

def SumTree.leaves : SumTree → List Nat
  | .leaf i => [i]
  | .node l r => l.leaves ++ r.leaves

/-- Rounded arithmetic: `rnd` is the rounding of an exact result (`⊤` and `⊥` are the infinities),
`maxInt` a number up to which integers are exact (2^53 for 64 bit floats), `maxFinite` one up to which
results do not overflow, `tree` the order of summation for each length of the array. -/
structure FloatArith where
  rnd : EReal → EReal
  exp : EReal → EReal
  log : EReal → EReal
  tree : Nat → SumTree
  maxInt : Nat
  maxFinite : ℝ
  rnd_mono : Monotone rnd
  rnd_idem : ∀ x, rnd (rnd x) = rnd x
  rnd_neg : ∀ x, rnd (-rnd x) = -rnd x
  rnd_int : ∀ k : ℤ, |k| ≤ maxInt → rnd ((k : ℝ) : EReal) = ((k : ℝ) : EReal)
  two_le : 2 ≤ maxInt
  rnd_finite : ∀ x : ℝ, |x| ≤ maxFinite → rnd x ≠ ⊥ ∧ rnd x ≠ ⊤
  exp_nonneg : ∀ x, 0 ≤ exp x
  exp_le_one : ∀ x ≤ 0, exp x ≤ 1
  exp_zero : exp 0 = 1
  exp_bot : exp ⊥ = 0
  log_mono : Monotone log
  log_one : log 1 = 0
  log_zero : log 0 = ⊥
  log_le : ∀ n : Nat, 1 ≤ n → n ≤ maxInt → log ((n : ℝ) : EReal) ≤ (((n : ℝ) - 1 : ℝ) : EReal)
  log_float : ∀ x, rnd (log x) = log x
  tree_perm : ∀ n, n ≠ 0 → (tree n).leaves.Perm (List.range n)

variable (F : FloatArith)

/-- `x + y`; `inf - inf` is nan. -/
def flAdd (x y : EReal) : Py EReal :=
  if (x = ⊤ ∧ y = ⊥) ∨ (x = ⊥ ∧ y = ⊤) then .error .undefined else .ok (F.rnd (x + y))

/-- `x - y` -/
def flSub (x y : EReal) : Py EReal := flAdd F x (-y)

/-- `np.log(x)`: nan for a negative number. -/
def flLog (x : EReal) : Py EReal := if x < 0 then .error .undefined else .ok (F.log x)

/-- `x / n` for a positive integer `n`, which is exact. -/
def flDiv (x : EReal) (n : Int) : EReal := F.rnd (x / ((n : ℝ) : EReal))

/-- The additions of `np.sum`, in the order of the tree. -/
def flSumTree (xs : List EReal) : SumTree → Py EReal
  | .leaf i => .ok (xs[i]?.getD 0)
  | .node l r => do
    let a ← flSumTree xs l
    let b ← flSumTree xs r
    flAdd F a b

/-- `np.sum(xs)` -/
def flSum (xs : List EReal) : Py EReal := if xs = [] then .ok 0 else flSumTree F xs (F.tree xs.length)

/-- `np.cumsum`, after the first element. -/
def flCumsumFrom (acc : EReal) : List EReal → Py (List EReal)
  | [] => .ok []
  | x :: xs => do
    let a ← flAdd F acc x
    let rest ← flCumsumFrom a xs
    pure (a :: rest)

/-- `np.cumsum(xs)` -/
def flCumsum : List EReal → Py (List EReal)
  | [] => .ok []
  | x :: xs => do
    let rest ← flCumsumFrom F x xs
    pure (x :: rest)

/-- `scipy.special.logsumexp(a)`: the maximum, unless it is infinite, is subtracted before
exponentiating. -/
def flLogsumexp (xs : List EReal) : Py EReal :=
  match amax xs with
  | none => .error .value
  | some m => do
    let m' := if m = ⊤ ∨ m = ⊥ then 0 else m
    let es ← pyMap (fun x => do
      let d ← flSub F x m'
      pure (F.exp d)) xs
    let s ← flSum F es
    let l ← flLog F s
    flAdd F l m'

/-- `log_subtract` (ns_run_utils.py:408-426). -/
def flLogSubtract (loga logb : EReal) : Py EReal := do
  let d ← flSub F logb loga
  let s ← flSub F 1 (F.exp d)
  let l ← flLog F s
  flAdd F loga l

/-- `-1 * (nlive.astype(float) ** -1)` (ns_run_utils.py:404); changing the sign is exact. -/
def flExpectedStep (n : Int) : EReal := -flDiv F 1 n

/-- `np.log(u) / nlive` (ns_run_utils.py:402) -/
def flSimulatedStep (un : EReal × Int) : Py EReal := do
  let l ← flLog F un.1
  pure (flDiv F l un.2)

/-- `get_logx` (ns_run_utils.py:368-405); `us` are the random numbers drawn if `simulate=True`. -/
def flLogx (nlive : List Int) (us : Option (List EReal)) : Py (List EReal) :=
  match amin nlive with
  | none => .error .value
  | some m =>
    if ¬ 0 < m then .error .assertion                                 -- 399
    else match us with
      | some us => do
        let steps ← pyMap (flSimulatedStep F) (us.zip nlive)          -- 402
        flCumsum F steps                                              -- 405
      | none => flCumsum F (nlive.map (flExpectedStep F))             -- 404-405

/-- `log_subtract(logx[:-2], logx[2:]) - np.log(2)` (ns_run_utils.py:325) -/
def flInner (logx : List EReal) : Py (List EReal) :=
  pyMap (fun p : EReal × EReal => do
    let l ← flLogSubtract F p.1 p.2
    flSub F l (F.log 2)) (logx.dropLast.dropLast.zip (logx.drop 2))

/-- The log prior volumes of the points (ns_run_utils.py:323-332). -/
def flVolumes (logx : List EReal) : Py (List EReal) :=
  match logx[0]?, logx[1]?, logx[logx.length - 2]?, logx.getLast? with
  | some x0, some x1, some y1, some y0 => do
    let inner ← flInner F logx                                        -- 325
    let s ← flLogsumexp F [x0, x1]
    let b ← flSub F s (F.log 2)
    let first ← flLogSubtract F 0 b                                   -- 328
    let t ← flLogsumexp F [y1, y0]
    let last ← flSub F t (F.log 2)
    pure (first :: inner ++ [last])                                   -- 332
  | _, _, _, _ => .error .index

/-- `get_logw` (ns_run_utils.py:298-343). -/
def flLogw (logl : List EReal) (nlive : List Int) (us : Option (List EReal)) : Py (List EReal) := do
  let logx ← flLogx F nlive us                                        -- 322
  if logl.length ≠ logx.length then .error .value
  else match flVolumes F logx with
    | .ok vols => pyMap (fun p : EReal × EReal => flAdd F p.1 p.2) (vols.zip logl)   -- 334
    | .error .index => if logl.length = 1 then .ok logl else .error .index           -- 336-341
    | .error e => .error e

/-- `np.exp(logw - logw.max())` -/
def flRelWeights (logw : List EReal) : Py (List EReal) :=
  match amax logw with
  | none => .error .value
  | some m => pyMap (fun x => do
      let d ← flSub F x m
      pure (F.exp d)) logw

/-- `get_w_rel` (ns_run_utils.py:346-365). -/
def flWRel (logl : List EReal) (nlive : List Int) (us : Option (List EReal)) : Py (List EReal) := do
  let logw ← flLogw F logl nlive us
  flRelWeights F logw

/-- `logz` (estimators.py:55-75). -/
def flLogz (logl : List EReal) (nlive : List Int) (us : Option (List EReal)) : Py EReal := do
  let logw ← flLogw F logl nlive us
  flLogsumexp F logw

end
end Nestcheck
