import Verif.Model.DataProcessing

/-
nestcheck/data_processing.py: reading the output of MultiNest and dynesty.
-/

namespace Nestcheck

/-- `os.path.join(a, b)` (posix). -/
def pathJoin (a b : String) : String :=
  if b.toList.head? = some '/' then b
  else if a.toList = [] ∨ a.toList.getLast? = some '/' then a ++ b
  else a ++ "/" ++ b

section
variable {K σ : Type} [CommRing K] [LinearOrder K]

/-- The text files holding tables of numbers, by name: `none` if there is no such
file. -/
abbrev Tables (K : Type) := String → Option (List (List K))

/-- `np.loadtxt(name)`: `OSError` for a missing file, `ValueError` for rows of different
lengths. -/
def loadText (files : Tables K) (name : String) : Py (List (List K)) :=
  match files name with
  | none => .error .os
  | some rows =>
    if rows.any (fun r => rows.any (fun s => decide (r.length ≠ s.length))) then .error .value else .ok rows

/-- An array read by `np.loadtxt` which is indexed with two indexes: `IndexError` if the table
has at most one row or column, for which `np.loadtxt` gives a one-dimensional array. -/
def twoDims (rows : List (List K)) : Py (List (List K)) :=
  if decide (rows.length ≤ 1) || rows.any (fun r => decide (r.length ≤ 1)) then .error .index else .ok rows

/-- `np.loadtxt(name)` followed by an indexing with two indexes. -/
def loadTable (files : Tables K) (name : String) : Py (List (List K)) := do
  let rows ← loadText files name
  twoDims rows

/-- `a[:, :-k]` -/
def dropCols (k : Nat) (rows : List (List K)) : List (List K) :=
  rows.map (fun r => r.take (r.length - k))

/-- A row (thetas, logl, birth_logl); `none` if it has fewer than two columns. -/
def rowSample (row : List K) : Option (Sample K) :=
  match row.reverse with
  | birth :: logl :: theta => some ⟨theta.reverse, logl, birth⟩
  | _ => none

/-- The rows of an array as samples; `IndexError` (from `a[:, -2]`) if there are fewer
than two columns. -/
def tableSamples : List (List K) → Py (List (Sample K))
  | [] => .ok []
  | row :: rows => match rowSample row with
    | none => .error .index
    | some s => match tableSamples rows with
      | .error e => .error e
      | .ok ss => .ok (s :: ss)

/-- The members of `run['output']` which say where a run came from
(data_processing.py:244, 297-299). -/
structure Source where
  fileRoot : String
  baseDir : String
  deriving DecidableEq

/-- `np.vstack((dead, live))`: `ValueError` for different numbers of columns. -/
def vstackSamples (dead live : List (Sample K)) : Py (List (Sample K)) :=
  if (dead ++ live).all (fun s => (dead ++ live).all (fun t => decide (s.theta.length = t.theta.length)))
  then .ok (dead ++ live)
  else .error .value

/-- All threads of a run start by sampling the whole prior
(data_processing.py:294). -/
def allFromPrior (run : Run K) : Bool :=
  (run.tmm.getD []).all (fun p => decide (p.1 = ⊥))

/-- `process_multinest_run` (data_processing.py:258-300). -/
def processMultinest (A : Argsort K) (R : Rng σ K) (files : Tables K) (fileRoot baseDir : String)
    (dupAssert dupWarn : Bool) : M σ (Run K × Source) := do
  let dead ← M.lift (loadText files (pathJoin baseDir fileRoot ++ "dead-birth.txt"))        -- 284
  let live ← M.lift (loadText files (pathJoin baseDir fileRoot ++ "phys_live-birth.txt"))   -- 285
  let dead ← M.lift (twoDims dead)                                    -- 288
  let live ← M.lift (twoDims live)                                    -- 289
  let dead ← M.lift (tableSamples (dropCols 2 dead))                  -- 288, 290
  let live ← M.lift (tableSamples (dropCols 1 live))                  -- 289, 290
  M.assert (dead.all (fun d => live.all (fun l => decide (d.logl < l.logl))))   -- 290
  let rows ← M.lift (vstackSamples dead live)
  let run ← processSamples A R rows dupAssert dupWarn                 -- 293
  M.assert (allFromPrior run)                                         -- 294
  pure (run, ⟨fileRoot, baseDir⟩)

/-- The members of a dynesty results object used by nestcheck.  `none` means that the
object has no such attribute.  Of `batch_bounds` only the first column is used. -/
structure Dynesty (K : Type) where
  samples : List (List K)
  logl : List K
  ids : List Nat
  nlive : Option Nat
  batchNlive : List Nat
  samplesN : Option (List Int)
  samplesBatch : List Nat
  batchStart : List (WithBot K)

/-- The start of the threads of a dynamic run (data_processing.py:359-361): the lower
bound of the batch of the first sample of each thread. -/
def dynestyStarts (res : Dynesty K) : List Nat → Py (List (WithBot K))
  | [] => .ok []
  | lab :: labs =>
    match ((whereIdx (· = lab) res.ids).head?.bind (res.samplesBatch[·]?)).bind (res.batchStart[·]?) with
    | none => .error .index
    | some s => match dynestyStarts res labs with
      | .error e => .error e
      | .ok ss => .ok (s :: ss)

/-- The index of the final sample of each thread (data_processing.py:363). -/
def finalInds (res : Dynesty K) (labs : List Nat) : List Nat :=
  labs.filterMap (fun lab => (whereIdx (· = lab) res.ids).getLast?)

/-- The change-in-nlive column: `np.diff(samples_n)` padded with a zero for dynamic
results which have `samples_n`, otherwise -1 at the end of each thread
(data_processing.py:354-358, 365-366). -/
def dynestyDn (res : Dynesty K) (dynamic : Bool) (ends : List Nat) : List Int :=
  if dynamic then diff (res.samplesN.getD []) ++ [0]
  else (List.range res.logl.length).map (fun i => if i ∈ ends then -1 else 0)

/-- The checks and thread starts for results with an `nlive` attribute
(data_processing.py:339-345). -/
def dynestyStatic (res : Dynesty K) (uniq : List Nat) (nlive : Nat) : Py (List (WithBot K)) :=
  if uniq.length ≠ nlive then .error .assertion                       -- 340
  else if unique (if nlive = 0 then res.ids else res.ids.drop (res.ids.length - nlive))
      ≠ List.range nlive then .error .assertion                       -- 341-344
  else .ok (List.replicate uniq.length ⊥)

/-- The same for results without it (data_processing.py:348-361). -/
def dynestyDynamic (res : Dynesty K) (uniq : List Nat) : Py (List (WithBot K)) :=
  if uniq.length ≠ res.batchNlive.sum then .error .assertion          -- 348
  else if (res.samplesN.map (·.length)).any (fun n => decide (n ≠ res.logl.length)) then .error .value
  else dynestyStarts res uniq

/-- The start of each thread of dynesty results (data_processing.py:338-361). -/
def dynestyThreadStarts (res : Dynesty K) (uniq : List Nat) : Py (List (WithBot K)) :=
  match res.nlive with
  | some n => dynestyStatic res uniq n
  | none => dynestyDynamic res uniq

/-- `process_dynesty_run` (data_processing.py:303-370). -/
def processDynesty (A : Argsort K) (res : Dynesty K) : M σ (Run K) := do
  (if res.logl.length ≠ res.samples.length ∨ res.ids.length ≠ res.samples.length
    then M.raise .value else pure () : M σ Unit)                      -- 331-333
  let uniq := unique res.ids                                          -- 334
  M.assert (uniq = List.range uniq.length)                            -- 335
  let starts ← M.lift (dynestyThreadStarts res uniq)                  -- 338-361
  let ends := finalInds res uniq                                      -- 362-363
  let tmm := starts.zip (gather res.logl ends)                        -- 364
  let dn := dynestyDn res (res.nlive.isNone && res.samplesN.isSome) ends
  let run ← dictGivenRunArray (mkRows res.logl (res.ids.map (fun i => some (Int.ofNat i))) dn res.samples)
    tmm                                                               -- 368
  checkRun A run false false                                          -- 369
  pure run

end
end Nestcheck
