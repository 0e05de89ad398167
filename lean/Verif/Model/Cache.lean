import Verif.Model.Py

/-
nestcheck/io_utils.py: `timing_decorator`, `save_load_result`, `pickle_save`,
`pickle_load`.

The global state is a disk: the files (only what matters to `pickle`: the value of a
complete pickle, or that the file is empty or a truncated pickle), the directories that
exist, the lines printed, and the rest of the state, which belongs to the decorated
function.  What the operating system does is a parameter of every call: whether a file
can be read, the time, and at which step of saving an error occurs.  Paths are lists of
characters.  The `extension` argument of `pickle_save` and `pickle_load` is in Model/CacheExt,
unexpected keyword arguments are in Model/Kwargs.  Not modelled: links, other processes which
change the disk during a call.

pickle.load is assumed to give back the value that was dumped, and to raise EOFError for
an empty file and UnpicklingError for a truncated one (a pickle ends with its only STOP
opcode).
-/

namespace Nestcheck
variable {V τ α : Type}

abbrev Path := List Char

/-- What a file holds. -/
inductive Content (V : Type) where
  | saved (v : V)
  | empty
  | truncated
  deriving DecidableEq

structure Disk (V τ : Type) where
  files : Path → Option (Content V)
  dirs : Path → Bool
  out : List Path
  rest : τ

/-- Change one file. -/
def Disk.write (d : Disk V τ) (p : Path) (c : Content V) : Disk V τ :=
  { d with files := fun q => if q = p then some c else d.files q }

/-- A computation which does not use the disk. -/
def onRest (f : M τ α) : M (Disk V τ) α := fun w =>
  ((f ⟨w.rng.rest, w.warns⟩).1,
    ⟨{ w.rng with rest := (f ⟨w.rng.rest, w.warns⟩).2.rng }, (f ⟨w.rng.rest, w.warns⟩).2.warns⟩)

/-- `print` -/
def printLine (line : Path) : M (Disk V τ) Unit := do
  let d ← M.getState
  M.setState { d with out := d.out ++ [line] }

/-- `timing_decorator` (io_utils.py:14-36); `line` is the line with the name of the function
and the time it took. -/
def timing (func : M (Disk V τ) α) (printTime : Bool) (line : Path) : M (Disk V τ) α :=
  if printTime then do
    let result ← func
    printLine line
    pure result
  else func

/-- `os.path.dirname`: all up to the last slash, without slashes at the end unless there is
nothing else. -/
def dirname (p : Path) : Path :=
  let head := (p.reverse.dropWhile (· ≠ '/')).reverse
  if head.all (· = '/') then head else (head.reverse.dropWhile (· = '/')).reverse

/-- The directory and those that contain it. -/
def ancestors : Nat → Path → List Path
  | 0, _ => []
  | n + 1, p => if p = [] then [] else p :: ancestors n (dirname p)

/-- The step of saving at which the operating system fails, if any.  `dump` raises `e`
having written a part of the file or not. -/
inductive Fault where
  | none
  | mkdir
  | opening
  | dump (e : PyErr) (part : Bool)
  | closing (part : Bool)
  deriving DecidableEq

/-- What an incomplete save leaves in the file. -/
def leftover (part : Bool) : Content V := if part then .truncated else .empty

/-- The time as given by `time.asctime()`, and the fault. -/
structure SaveEnv where
  time : Path
  fault : Fault

/-- `os.makedirs(dirname)` (io_utils.py:125). -/
def makeDirs (dir : Path) (fault : Fault) : M (Disk V τ) Unit := do
  if fault = .mkdir then M.raise .os
  let d ← M.getState
  M.setState { d with dirs := fun p => d.dirs p || decide (p ∈ ancestors dir.length dir) }

/-- `name + '_' + time.asctime().replace(' ', '_') + extension` (io_utils.py:128-129). -/
def stamped (name time : Path) : Path :=
  name ++ '_' :: time.map (fun c => if c = ' ' then '_' else c) ++ ".pkl".toList

/-- `open`, `pickle.dump`, `close` (io_utils.py:137-139).  Opening empties the file; what is
dumped is complete when the file is closed. -/
def writePickle (v : V) (target : Path) (fault : Fault) : M (Disk V τ) Unit := do
  let d ← M.getState
  if fault = .opening ∨ (d.dirs (dirname target) = false ∧ dirname target ≠ []) then M.raise .os
  M.setState (d.write target .empty)
  match fault with
  | .dump e part => do
    M.setState (d.write target (leftover part))
    M.raise e
  | .closing part => do
    M.setState (d.write target (leftover part))
    M.raise .os
  | _ => M.setState (d.write target (.saved v))

/-- `pickle_save` (io_utils.py:100-142).  The name PermissionError is assigned to in the
function, so it is a local variable without a value at line 133 and stands for IOError
(that is, OSError) at line 140. -/
def pickleSave (v : V) (name : Path) (overwrite : Bool) (env : SaveEnv) : M (Disk V τ) Unit := do
  let filename := name ++ ".pkl".toList                                              -- 121
  let d ← M.getState
  if d.dirs (dirname filename) = false ∧ dirname filename ≠ [] then                  -- 124
    makeDirs (dirname filename) env.fault
  if (d.files filename).isSome ∧ overwrite = false then do                           -- 126
    printLine (filename ++ " already exists! Saving with time appended".toList)
    M.tryExcept (writePickle v (stamped name env.time) env.fault)
      (fun e => e == .memory || e == .os) (fun _ => M.warn .saveFailed)
  else
    M.tryExcept (writePickle v filename env.fault)
      (fun e => e == .memory || e == .os) (fun _ => M.warn .saveFailed)

/-- `pickle_load` (io_utils.py:145-164).  `OSError` if there is no such file or it cannot be
read. -/
def pickleLoad (name : Path) (unreadable : Bool) : M (Disk V τ) V := do
  let d ← M.getState
  if unreadable then M.raise .os
  else match d.files (name ++ ".pkl".toList) with
    | none => M.raise .os
    | some (.saved v) => pure v
    | some .empty => M.raise .eof
    | some .truncated => M.raise .unpickling

/-- The keyword arguments which `save_load_result` takes (io_utils.py:68-72), `none` for those
not given. -/
structure CacheOpts where
  saveName : Option Path
  save : Option Bool := none
  load : Option Bool := none
  overwrite : Bool := true
  warnIfError : Bool := false

structure CallEnv where
  unreadable : Bool
  saving : SaveEnv

/-- Loading (io_utils.py:73-87); `none` if the function has to be called. -/
def tryLoad (o : CacheOpts) (env : CallEnv) : M (Disk V τ) (Option V) :=
  if o.load.getD o.saveName.isSome then
    match o.saveName with
    | none => do
      M.warn .loadNoName
      pure none
    | some name =>
      M.tryExcept (do
          let v ← pickleLoad name env.unreadable
          pure (some v))
        (fun e => e == .os)
        (fun _ => do
          if o.warnIfError then M.warn .loadFailed
          pure none)
  else pure none

/-- Saving (io_utils.py:89-95). -/
def trySave (result : V) (o : CacheOpts) (env : CallEnv) : M (Disk V τ) Unit :=
  if o.save.getD o.saveName.isSome then
    match o.saveName with
    | none => M.warn .saveNoName
    | some name => pickleSave result name o.overwrite env.saving
  else pure ()

/-- `save_load_result` (io_utils.py:39-97); `func` is the call of the decorated function with
the remaining arguments. -/
def saveLoad (func : M (Disk V τ) V) (o : CacheOpts) (env : CallEnv) : M (Disk V τ) V := do
  let loaded ← tryLoad o env
  match loaded with
  | some v => pure v
  | none => do
    let result ← func                                                                -- 88
    trySave result o env
    pure result

end Nestcheck
