import Mathlib.Data.List.Sort
import Verif.Model.Py

/-
nestcheck/parallel_utils.py and `batch_process_data`, `process_error_helper`
(data_processing.py:103-209).

The function to be applied is a computation with access to the global state.  In a
worker process it runs in a state of its own, which may depend on what the worker did
before: every task (or chunk of tasks) of a schedule has its own arbitrary world, and
what it does to it is not seen by the caller.  The order of completion is arbitrary.
`tqdm`, `functools.partial` (the fixed arguments are part of the function), the number of
workers and pickling of arguments and results are not modelled; that
`concurrent.futures` runs every task exactly once, that `as_completed` gives every future
once and that `Executor.map` gives results in the order of its input is assumed.
-/

namespace Nestcheck
variable {σ α β : Type}

/-- A possible execution of `n` tasks by a process pool: the order in which they are
completed and the states in which the workers start them. -/
structure Schedule (σ : Type) (n : Nat) where
  order : List Nat
  complete : order.Perm (List.range n)
  worlds : Nat → World σ

/-- `[f(x) for x in xs]` -/
def mapSeq (f : α → M σ β) : List α → M σ (List β)
  | [] => pure []
  | x :: xs => do
    let y ← f x
    let ys ← mapSeq f xs
    pure (y :: ys)

/-- `results.append(fut.result())` for the futures in order of completion
(parallel_utils.py:139-141). -/
def collect (rs : List (Py β)) : List Nat → Py (List β)
  | [] => .ok []
  | i :: is =>
    match rs[i]? with
    | none => .error .index
    | some (.error e) => .error e
    | some (.ok y) =>
      match collect rs is with
      | .error e => .error e
      | .ok ys => .ok (y :: ys)

/-- The outcomes of the tasks, task `i` being run in `worlds i`. -/
def taskResults (f : α → M σ β) (worlds : Nat → World σ) : Nat → List α → List (Py β)
  | _, [] => []
  | i, x :: xs => (f x (worlds i)).1 :: taskResults f worlds (i + 1) xs

/-- `if parallel_warning: warnings.warn(...)` (parallel_utils.py:63, 125). -/
def parallelWarning (warn : Bool) : M σ Unit := if warn then M.warn .notParallel else pure ()

/-- `parallel_apply` (parallel_utils.py:70-142). -/
def parallelApply (f : α → M σ β) (xs : List α) (parallel warn : Bool) (S : Schedule σ xs.length) :
    M σ (List β) :=
  if parallel then M.lift (collect (taskResults f S.worlds 0 xs) S.order)
  else do
    parallelWarning warn
    mapSeq f xs

/-- The chunks of `Executor.map`: the list cut into pieces of `k` items. -/
def chunks (k : Nat) : Nat → List α → List (List α)
  | 0, _ => []
  | fuel + 1, xs => if xs = [] then [] else xs.take k :: chunks k fuel (xs.drop k)

/-- The results of the chunks in the order of the input. -/
def joinResults : List (Py (List β)) → Py (List β)
  | [] => .ok []
  | r :: rs =>
    match r with
    | .error e => .error e
    | .ok ys =>
      match joinResults rs with
      | .error e => .error e
      | .ok zs => .ok (ys ++ zs)

/-- `parallel_map` (parallel_utils.py:12-67) with one iterable.  A chunk is processed by one
worker, one item after the other; `ValueError` for a chunksize less than one. -/
def parallelMap (f : α → M σ β) (xs : List α) (chunksize : Nat) (parallel warn : Bool)
    (worlds : Nat → World σ) : M σ (List β) :=
  if parallel then
    if chunksize = 0 then M.raise .value
    else M.lift (joinResults (taskResults (mapSeq f) worlds 0 (chunks chunksize xs.length xs)))
  else do
    parallelWarning warn
    mapSeq f xs

/-- What `process_error_helper` returns: a run, or the file root and the type of the
error. -/
inductive Item (β : Type) where
  | done (run : β)
  | failed (root : String) (e : PyErr)

/-- `process_error_helper` (data_processing.py:172-209); `handled` tells which errors are
among errors_to_handle. -/
def processErrorHelper (f : String → M σ β) (handled : PyErr → Bool) (root : String) : M σ (Item β) :=
  M.tryExcept (do
      let run ← f root
      pure (.done run))
    handled
    (fun e => pure (.failed root e))

/-- `file_roots.index(x['output']['file_root'])` (data_processing.py:152): `KeyError` if the
run has no such entry (`rootOf` gives `none`), `ValueError` if it is not in the list. -/
def itemKey (roots : List String) (rootOf : β → Option String) (x : Item β) : Py Nat :=
  match (match x with | .done run => rootOf run | .failed root _ => some root) with
  | none => .error .key
  | some root =>
    match roots.findIdx? (· = root) with
    | none => .error .value
    | some i => .ok i

/-- The items with their keys. -/
def keyed (roots : List String) (rootOf : β → Option String) : List (Item β) → Py (List (Nat × Item β))
  | [] => .ok []
  | x :: xs =>
    match itemKey roots rootOf x with
    | .error e => .error e
    | .ok k =>
      match keyed roots rootOf xs with
      | .error e => .error e
      | .ok ys => .ok ((k, x) :: ys)

/-- `sorted(data, key=...)` (data_processing.py:151), a stable sort. -/
def sortItems (xs : List (Nat × Item β)) : List (Item β) :=
  (xs.insertionSort (fun a b => a.1 ≤ b.1)).map Prod.snd

/-- `errors[e].append(i)`, or a new entry (data_processing.py:157-160). -/
def addError (e : PyErr) (i : Nat) : List (PyErr × List Nat) → List (PyErr × List Nat)
  | [] => [(e, [i])]
  | (e', is) :: rest => if e' = e then (e', is ++ [i]) :: rest else (e', is) :: addError e i rest

/-- The errors and the positions at which they occurred (data_processing.py:154-160). -/
def errorReport : Nat → List (Item β) → List (PyErr × List Nat) → List (PyErr × List Nat)
  | _, [], d => d
  | i, .done _ :: xs, d => errorReport (i + 1) xs d
  | i, .failed _ e :: xs, d => errorReport (i + 1) xs (addError e i d)

/-- The runs without errors (data_processing.py:169). -/
def goodRuns : List (Item β) → List β
  | [] => []
  | .done run :: xs => run :: goodRuns xs
  | .failed _ _ :: xs => goodRuns xs

/-- `batch_process_data` (data_processing.py:103-169) without caching: the printed report
(error type and positions) and the runs.  `rootOf` reads `run['output']['file_root']`. -/
def batchProcess (f : String → M σ β) (rootOf : β → Option String) (handled : PyErr → Bool)
    (roots : List String) (parallel warn : Bool) (S : Schedule σ roots.length) :
    M σ (List (PyErr × List Nat) × List β) := do
  let data ← parallelApply (processErrorHelper f handled) roots parallel warn S    -- 146
  let data ← M.lift (keyed roots rootOf data)
  pure (errorReport 0 (sortItems data) [], goodRuns (sortItems data))

end Nestcheck
