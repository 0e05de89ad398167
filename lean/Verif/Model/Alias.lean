import Verif.Model.NsRun

/-
Model of `combine_ns_runs` with the `thread_labels` arrays as objects in memory.
`Model/NsRun.lean` treats runs as values.  The code however copies the list of
runs with one call of `copy.deepcopy` and then adds to the `thread_labels` array
of each copy in place, so it matters which runs share an array.

`thread_labels` is the only array to which `combine_ns_runs` writes, so the other
members stay values here.
-/

namespace Nestcheck

/-- Memory: integer arrays at the addresses below `next`. -/
structure Heap where
  next : Nat
  arr : Nat → List Int

/-- A run dictionary as an object: `thread_labels` refers to an array in memory. -/
structure RunObj (K : Type) where
  logl : List K
  nlive : List Int
  theta : List (List K)
  labels : Option Nat
  tmm : Option (List (WithBot K × K))

section
variable {K : Type} [CommRing K] [LinearOrder K]

/-- The value of a run object. -/
def RunObj.read (h : Heap) (r : RunObj K) : Run K :=
  { logl := r.logl, nlive := r.nlive, theta := r.theta, labels := r.labels.map h.arr, tmm := r.tmm }

/-- `copy.deepcopy(run_list_in)` (ns_run_utils.py:191): a copy of every array; the
memo of `deepcopy` copies an object which is met twice once only, so the copies of
two runs share an array if and only if the runs do. -/
def deepcopyRuns (runs : List (RunObj K)) : M Heap (List (RunObj K)) := do
  let h ← M.getState
  M.setState { next := 2 * h.next,
               arr := fun b => if h.next ≤ b ∧ b < 2 * h.next then h.arr (b - h.next) else h.arr b }
  pure (runs.map (fun r => { r with labels := r.labels.map (· + h.next) }))

/-- `run['thread_labels'] += n` (ns_run_utils.py:198): numpy adds in place.
`None + int` raises `TypeError`. -/
def addLabels (n : Nat) : Option Nat → M Heap Unit
  | none => M.raise .type
  | some a => do
    let h ← M.getState
    M.setState { h with arr := fun b => if b = a then (h.arr b).map (· + (n : Int)) else h.arr b }

/-- The checking and relabelling loop of `combine_ns_runs`
(ns_run_utils.py:194-199). -/
def relabelObjs (A : Argsort K) (dupAssert dupWarn : Bool) : Nat → List (RunObj K) → M Heap Unit
  | _, [] => pure ()
  | ntot, r :: rs => do
    let h ← M.getState
    checkRun A (r.read h) dupAssert dupWarn                           -- 197
    addLabels ntot r.labels                                           -- 198
    relabelObjs A dupAssert dupWarn (ntot + (r.tmm.getD []).length) rs  -- 199

/-- The part of `combine_ns_runs` before the final check
(ns_run_utils.py:191-205). -/
def stackObjs (A : Argsort K) (runs : List (RunObj K)) (dupAssert dupWarn : Bool) : M Heap (Run K) := do
  let runs ← deepcopyRuns runs                                        -- 191
  match runs with
  | [r] => do
    let h ← M.getState
    pure (r.read h)                                                   -- 192-193
  | runs => do
    relabelObjs A dupAssert dupWarn 0 runs                            -- 195-199
    let h ← M.getState
    let vals := runs.map (RunObj.read h)
    let tmm ← M.lift (tmmStack vals)                                  -- 200
    let arrs ← M.lift (arraysGivenRuns vals)
    let rows ← M.lift (vstack arrs)                                   -- 202
    dictGivenRunArray (sortBy A (·.logl) rows) tmm                    -- 203-205

/-- `combine_ns_runs` (ns_run_utils.py:170-224), as `combineRuns` but on objects. -/
def combineObjs (A : Argsort K) (runs : List (RunObj K)) (dupAssert dupWarn : Bool) :
    M Heap (Run K) := do
  let run ← stackObjs A runs dupAssert dupWarn
  checkRun A run dupAssert dupWarn                                    -- 223
  pure run

end
end Nestcheck
