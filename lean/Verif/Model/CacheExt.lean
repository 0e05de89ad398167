import Verif.Model.Cache

/-
nestcheck/io_utils.py: `pickle_save` and `pickle_load` with the argument `extension`.  The disk and the
operating system are those of Model/Cache.
-/

namespace Nestcheck
variable {V τ : Type}

/-- `name + '_' + time.asctime().replace(' ', '_') + extension` (io_utils.py:128-129). -/
def stampedExt (name time ext : Path) : Path :=
  name ++ '_' :: time.map (fun c => if c = ' ' then '_' else c) ++ ext

/-- `pickle_save` (io_utils.py:100-142). -/
def pickleSaveExt (v : V) (name ext : Path) (overwrite : Bool) (env : SaveEnv) : M (Disk V τ) Unit := do
  let filename := name ++ ext                                                        -- 121
  let d ← M.getState
  if d.dirs (dirname filename) = false ∧ dirname filename ≠ [] then                  -- 124
    makeDirs (dirname filename) env.fault
  if (d.files filename).isSome ∧ overwrite = false then do                           -- 126
    printLine (filename ++ " already exists! Saving with time appended".toList)
    M.tryExcept (writePickle v (stampedExt name env.time ext) env.fault)
      (fun e => e == .memory || e == .os) (fun _ => M.warn .saveFailed)
  else
    M.tryExcept (writePickle v filename env.fault)
      (fun e => e == .memory || e == .os) (fun _ => M.warn .saveFailed)

/-- `pickle_load` (io_utils.py:145-164). -/
def pickleLoadExt (name ext : Path) (unreadable : Bool) : M (Disk V τ) V := do
  let d ← M.getState
  if unreadable then M.raise .os
  else match d.files (name ++ ext) with                                              -- 160-161
    | none => M.raise .os
    | some (.saved v) => pure v                                                      -- 162
    | some .empty => M.raise .eof
    | some .truncated => M.raise .unpickling

end Nestcheck
