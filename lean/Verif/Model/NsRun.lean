import Mathlib.Algebra.Order.Ring.Int
import Verif.Model.Numpy

/-
Model of nestcheck/ns_run_utils.py, apart from the weights (Model/Weights.lean).

Loglikelihoods and parameters are elements of an ordered ring `K`; floating
point rounding, nan and infinite sample loglikelihoods are not modelled.  The
value -inf, which only occurs as the start of a thread, is `⊥ : WithBot K`.
Live counts are integers (numpy stores them as floats).
-/

namespace Nestcheck

/-- A nested sampling run dictionary (format: data_processing.py:1-58).
`labels = none` stands for a `thread_labels` member which is not an integer
array: Python's `None` (ns_run_utils.py:293) or an array containing nan.
`tmm = none` is Python's `None` (ns_run_utils.py:294). -/
structure Run (K : Type) where
  logl : List K
  nlive : List Int
  theta : List (List K)
  labels : Option (List Int)
  tmm : Option (List (WithBot K × K))
  deriving DecidableEq

/-- A row of a samples array: columns [logl, thread label, change in nlive,
(thetas)] (ns_run_utils.py:55-58); `label = none` is nan. -/
structure Row (K : Type) where
  logl : K
  label : Option Int
  dn : Int
  theta : List K
  deriving DecidableEq

section
variable {K σ : Type} [CommRing K] [LinearOrder K]

/-- Fill a samples array column by column (ns_run_utils.py:60-66). -/
def mkRows : List K → List (Option Int) → List Int → List (List K) → List (Row K)
  | l :: ls, b :: bs, d :: ds, t :: ts => ⟨l, b, d, t⟩ :: mkRows ls bs ds ts
  | _, _, _, _ => []

/-- The label column of a samples array (ns_run_utils.py:62): assigning `None`
gives nan. -/
def labelColumn (r : Run K) : List (Option Int) :=
  match r.labels with
  | some ls => ls.map some
  | none => List.replicate r.logl.length none

/-- `array_given_run` (ns_run_utils.py:42-67).  Columns of different lengths
raise `ValueError` (numpy would broadcast columns of length one; ignored).
With no samples, line 65 raises `IndexError`. -/
def arrayGivenRun (r : Run K) : Py (List (Row K)) :=
  let n := r.logl.length
  let labels := labelColumn r
  if labels.length ≠ n ∨ r.nlive.length ≠ n ∨ r.theta.length ≠ n then .error .value
  else if n = 0 then .error .index
  else .ok (mkRows r.logl labels (diff r.nlive ++ [-1]) r.theta)

/-- All elements if none of them is nan (the cast at ns_run_utils.py:101-106). -/
def allSome {α : Type} : List (Option α) → Option (List α)
  | [] => some []
  | none :: _ => none
  | some x :: xs => (allSome xs).map (x :: ·)

/-- `dict_given_run_array` (ns_run_utils.py:70-132). -/
def dictGivenRunArray (rows : List (Row K)) (tmm : List (WithBot K × K)) : M σ (Run K) :=
  let logl : List K := rows.map (·.logl)
  match amin logl with
  | none => M.raise .value                                            -- 107, empty array
  | some m => do
    let nlive0 : Int := tmm.countP (fun p => p.1 ≤ (m : WithBot K))   -- 107
    M.assert (decide (0 < nlive0))                                    -- 108
    let nl := nlive0 :: cumsumFrom nlive0 (rows.map (·.dn)).dropLast  -- 109-110
    let dup := tmm.countP (fun p => p.1 = (m : WithBot K))            -- 112
    let nl ← (if 1 < dup then do                                      -- 113
        let shifted := nl.map (· + (1 - nl.getLast?.getD 0))          -- 117
        let nmin := logl.countP (· = m)                               -- 118
        M.warn .dupStart                                              -- 120
        pure (List.replicate nmin nlive0 ++ shifted.drop nmin)        -- 119
      else pure nl : M σ (List Int))
    M.assert (nl.all (fun x => decide (0 < x)))                       -- 125
    M.assert (nl.getLast? = some 1)                                   -- 129
    pure { logl := logl, nlive := nl, theta := rows.map (·.theta),
           labels := allSome (rows.map (·.label)), tmm := some tmm }

/-- Set the change-in-nlive column of one thread: zero everywhere, -1 at its last
point (ns_run_utils.py:161-162). -/
def threadDn : List (Row K) → List (Row K)
  | [] => []
  | [r] => [{ r with dn := -1 }]
  | r :: rs => { r with dn := 0 } :: threadDn rs

/-- One iteration of the loop in `get_run_threads` (ns_run_utils.py:158-166). -/
def getThread (rows : List (Row K)) (tmm : List (WithBot K × K)) (i : Nat) (lab : Int) :
    M σ (Run K) :=
  let arr := threadDn (rows.filter (fun r => r.label = some lab))
  match tmm[i]?, arr.getLast? with
  | some mm, some last => do
    M.assert (mm.2 = last.logl)                                       -- 164
    dictGivenRunArray arr [mm]                                        -- 166
  | _, _ => M.raise .index

/-- The loop of `get_run_threads` over the enumerated labels
(ns_run_utils.py:157-167). -/
def getThreadsLoop (rows : List (Row K)) (tmm : List (WithBot K × K)) :
    Nat → List Int → M σ (List (Run K))
  | _, [] => pure []
  | i, lab :: labs => do
    let t ← getThread rows tmm i lab
    let ts ← getThreadsLoop rows tmm (i + 1) labs
    pure (t :: ts)

/-- `get_run_threads` (ns_run_utils.py:135-167).  A run without thread labels or
thread_min_max raises (`None` has no attribute `shape`). -/
def getRunThreads (r : Run K) : M σ (List (Run K)) := do
  let rows ← M.lift (arrayGivenRun r)
  match r.labels, r.tmm with
  | some labels, some tmm => do
    let uniq := unique labels                                         -- 153
    M.assert (tmm.length = uniq.length)                               -- 154
    getThreadsLoop rows tmm 0 uniq
  | _, _ => M.raise .attribute

/-- `check_ns_run_logls` (ns_run_utils.py:499-532). -/
def checkLogls (A : Argsort K) (logl : List K) (dupAssert dupWarn : Bool) : M σ Unit := do
  M.assert (logl = sortBy A id logl)                                  -- 517
  if dupAssert || dupWarn then do
    let rep := logl.length - (unique logl).length                     -- 520
    if dupAssert then M.assert (rep = 0)                              -- 529
    else if dupWarn then
      if rep ≠ 0 then M.warn .dupLogl else pure ()                    -- 532
    else pure ()
  else pure ()

/-- One iteration of the loop in `check_ns_run_threads`
(ns_run_utils.py:557-566). -/
def checkThread (logl : List K) (labels : List Int) (tmm : List (WithBot K × K)) (lab : Int) :
    Py Unit :=
  let inds := whereIdx (· = lab) labels                               -- 558
  match inds.head?.bind (logl[·]?), inds.getLast?.bind (logl[·]?), tmm[lab.toNat]? with
  | some first, some last, some mm =>
    if ¬ (mm.1 ≤ (first : WithBot K)) then .error .assertion          -- 561
    else if mm.2 ≠ last then .error .assertion                        -- 565
    else .ok ()
  | _, _, _ => .error .index

def checkThreadLoop (logl : List K) (labels : List Int) (tmm : List (WithBot K × K)) :
    List Int → Py Unit
  | [] => .ok ()
  | lab :: labs => do
    checkThread logl labels tmm lab
    checkThreadLoop logl labels tmm labs

/-- `check_ns_run_threads` (ns_run_utils.py:535-566). -/
def checkThreads (r : Run K) : Py Unit :=
  match r.labels, r.tmm with
  | none, _ => .error .assertion                                      -- 548
  | some _, none => .error .attribute
  | some labels, some tmm =>
    let uniq := unique labels                                         -- 549
    if uniq ≠ (List.range tmm.length).map Int.ofNat then .error .assertion   -- 550
    else if ¬ tmm.any (fun p => p.1 = ⊥) then .error .assertion       -- 554
    else checkThreadLoop r.logl labels tmm uniq

/-- `check_ns_run_members` (ns_run_utils.py:459-496), for a dictionary with the
mandatory keys and no others (keys: see `checkKeys`). -/
def checkMembers (r : Run K) : Py Unit :=
  match r.labels, r.tmm with
  | some labels, some _ =>
    if r.logl.length ≠ r.nlive.length then .error .assertion          -- 493
    else if r.logl.length ≠ labels.length then .error .assertion      -- 494
    else if r.logl.length ≠ r.theta.length then .error .assertion     -- 496
    else .ok ()
  | _, _ => .error .assertion                                         -- 489

/-- `check_ns_run` (ns_run_utils.py:433-456). -/
def checkRun (A : Argsort K) (r : Run K) (dupAssert dupWarn : Bool) : M σ Unit := do
  M.lift (checkMembers r)
  checkLogls A r.logl dupAssert dupWarn
  M.lift (checkThreads r)

/-- `list.remove` of a key that may be missing. -/
def removeKey (k : String) (keys : List String) : List String := keys.erase k

/-- The mandatory keys of a run (ns_run_utils.py:474-475). -/
def mandatoryKeys : List String :=
  ["logl", "nlive_array", "theta", "thread_labels", "thread_min_max"]

/-- The key checks of `check_ns_run_members` (ns_run_utils.py:472-485). -/
def checkKeys (keys : List String) : Py Unit :=
  let rec go : List String → List String → Py (List String)
    | [], keys => .ok keys
    | k :: ks, keys => if k ∈ keys then go ks (keys.erase k) else .error .assertion
  match go mandatoryKeys keys with
  | .error e => .error e
  | .ok rest => if (removeKey "output" rest).isEmpty then .ok () else .error .assertion

/-- `np.vstack` of samples arrays: `ValueError` for no arrays or for different
numbers of columns. -/
def vstack (arrs : List (List (Row K))) : Py (List (Row K)) :=
  match arrs with
  | [] => .error .value
  | _ =>
    let rows := arrs.flatten
    if rows.all (fun r => rows.all (fun s => r.theta.length = s.theta.length)) then .ok rows
    else .error .value

/-- `[array_given_run(run) for run in runs]` -/
def arraysGivenRuns : List (Run K) → Py (List (List (Row K)))
  | [] => .ok []
  | r :: rs => do
    let a ← arrayGivenRun r
    let as ← arraysGivenRuns rs
    pure (a :: as)

/-- `np.vstack([run['thread_min_max'] for run in runs])`; `ValueError` when there
are no runs or a member is `None`. -/
def tmmStack : List (Run K) → Py (List (WithBot K × K))
  | [] => .error .value
  | [r] => match r.tmm with
    | some t => .ok t
    | none => .error .value
  | r :: rs => match r.tmm with
    | some t => do
      let ts ← tmmStack rs
      pure (t ++ ts)
    | none => .error .value

/-- The finite elements of `logl_starts` (ns_run_utils.py:261, 264). -/
def finiteStarts (tmm : List (WithBot K × K)) : List K :=
  tmm.filterMap (fun p => WithBot.recBotCoe (C := fun _ => Option K) none some p.1)

/-- The loop of `combine_threads` which adds one to the change in nlive at the
point where each dynamic thread starts (ns_run_utils.py:264-284). -/
def birthUpdate (R : Rng σ K) (assertBP : Bool) : List K → List (Row K) → M σ (List (Row K))
  | [], rows => pure rows
  | s :: ss, rows => do
    let ind := whereIdx (· = s) (rows.map (·.logl))                   -- 265
    (if assertBP then M.assert (ind.length = 1) else pure () : M σ Unit)  -- 267
    let k ← (match ind with
      | [k] => pure k                                                 -- 269
      | [] => match argmin (rows.map (fun r => |r.logl - s|)) with    -- 277
        | some k => pure k
        | none => M.raise .value
      | _ => npChoice R ind : M σ Nat)                                -- 284
    birthUpdate R assertBP ss (rows.modify k (fun r => { r with dn := r.dn + 1 }))

/-- `combine_threads` (ns_run_utils.py:227-295). -/
def combineThreads (A : Argsort K) (R : Rng σ K) (threads : List (Run K)) (assertBP : Bool) :
    M σ (Run K) := do
  let tmm ← M.lift (tmmStack threads)                                 -- 254
  M.assert (threads.length = tmm.length)                              -- 255
  let arrs ← M.lift (arraysGivenRuns threads)
  let rows ← M.lift (vstack arrs)                                     -- 257
  let rows := sortBy A (·.logl) rows                                  -- 258
  let state ← M.getState                                              -- 262
  npSeed R 0                                                          -- 263
  let rows ← birthUpdate R assertBP (finiteStarts tmm) rows           -- 264-284
  M.setState state                                                    -- 285
  let run ← dictGivenRunArray rows tmm                                -- 287
  match checkThreads run with                                         -- 288
  | .ok _ => pure run
  | .error .assertion => pure { run with labels := none, tmm := none }
  | .error e => M.raise e

/-- The checking and relabelling loop of `combine_ns_runs`
(ns_run_utils.py:195-199). -/
def relabelLoop (A : Argsort K) (dupAssert dupWarn : Bool) : Nat → List (Run K) → M σ (List (Run K))
  | _, [] => pure []
  | ntot, r :: rs => do
    checkRun A r dupAssert dupWarn
    let r' := { r with labels := r.labels.map (·.map (· + (ntot : Int))) }
    let rs' ← relabelLoop A dupAssert dupWarn (ntot + (r.tmm.getD []).length) rs
    pure (r' :: rs')

/-- The part of `combine_ns_runs` before the final check
(ns_run_utils.py:191-205). -/
def stackRuns (A : Argsort K) (runs : List (Run K)) (dupAssert dupWarn : Bool) : M σ (Run K) :=
  match runs with
  | [r] => pure r                                                     -- 192
  | runs => do
    let runs ← relabelLoop A dupAssert dupWarn 0 runs                 -- 195-199
    let tmm ← M.lift (tmmStack runs)                                  -- 200
    let arrs ← M.lift (arraysGivenRuns runs)
    let rows ← M.lift (vstack arrs)                                   -- 202
    dictGivenRunArray (sortBy A (·.logl) rows) tmm                    -- 203-205

/-- `combine_ns_runs` (ns_run_utils.py:170-224) without the `output` member, for
which see `combineOutput`. -/
def combineRuns (A : Argsort K) (runs : List (Run K)) (dupAssert dupWarn : Bool) :
    M σ (Run K) := do
  let run ← stackRuns A runs dupAssert dupWarn
  checkRun A run dupAssert dupWarn                                    -- 223
  pure run

end

/-- A value stored in `run['output']` under `nlike` or `ndead`: a number or an
iterable of numbers. -/
inductive OutVal where
  | num (x : Int)
  | arr (xs : List Int)
  deriving DecidableEq

/-- `run['output']`: a dictionary as an association list. -/
abbrev Output := List (String × OutVal)

/-- The summation of one key over the `output` members of the runs
(ns_run_utils.py:209-222): `none` if a run has no `output` or lacks the key. -/
def sumKey (key : String) : List (Option Output) → Option Int
  | [] => some 0
  | none :: _ => none
  | some out :: outs => match out.lookup key, sumKey key outs with
    | some (.num x), some s => some (x + s)
    | some (.arr xs), some s => some (xs.sum + s)
    | _, _ => none

/-- `run['output']` of a combined run (ns_run_utils.py:191-222), given those of
the input runs.  A single run keeps its own. -/
def combineOutput (outs : List (Option Output)) : Option Output :=
  match outs with
  | [o] => o
  | _ =>
    let add (key : String) : Output := match sumKey key outs with
      | some s => [(key, .num s)]
      | none => []
    some (add "nlike" ++ add "ndead")

end Nestcheck
