import Verif.Model.Cache
import Verif.Model.DeadBirth
import Verif.Model.Diagnostics
import Verif.Model.DummyData
import Verif.Model.Packages
import Verif.Model.Stats

/-
Keyword arguments: the functions of nestcheck which take `**kwargs` as they are called by
the user, with the options in a dictionary.  Each pops the options it knows from the
dictionary, gives the missing ones their default and raises `TypeError` if something is
left, or hands the rest to another function.  What is done with the options is in the other
files of the model.

The values which options may have are those of `Val`; other types of Python objects are not
modelled.  Options given twice (refused by Python when the call is compiled or bound) are
excluded by `Nodup` in the theorems.  `tqdm`'s options and `max_workers` are accepted and
have no effect in the model.
-/

namespace Nestcheck
noncomputable section
variable {σ τ V α β K : Type}

/-- Values of keyword arguments. -/
inductive Val where
  | none
  | bool (b : Bool)
  | nat (n : Nat)
  | real (x : ℝ)
  | negInf
  | str (s : Path)
  | seeds (l : List Seed)
  | names (l : List String)
  | reals (l : List ℝ)
  | tuple (l : List Val)
  | errors (l : List PyErr)
  | func (name : String)
  | dict (d : List (String × Val))

/-- A dictionary of keyword arguments. -/
abbrev Kwargs := List (String × Val)

/-- The value of an option, or its default: the first part of `kwargs.pop(key, default)`. -/
def Kwargs.get (kw : Kwargs) (key : String) (default : Val) : Val :=
  (kw.lookup key).getD default

/-- The dictionary without an option: the second part of `kwargs.pop`. -/
def Kwargs.without (kw : Kwargs) (key : String) : Kwargs :=
  kw.filter (fun p => p.1 ≠ key)

/-- `if kwargs: raise TypeError('Unexpected **kwargs: ...')` -/
def noneLeft (kw : Kwargs) : Py Unit :=
  match kw with
  | [] => .ok ()
  | _ => .error .type

open Classical in
/-- Truth values as used by `if`. -/
def Val.truthy : Val → Bool
  | .none => false
  | .bool b => b
  | .nat n => n ≠ 0
  | .real x => decide (x ≠ 0)
  | .negInf => true
  | .str s => s ≠ []
  | .seeds l => !l.isEmpty
  | .names l => !l.isEmpty
  | .reals l => !l.isEmpty      -- simplified: a numpy array of several numbers has no truth value
  | .tuple l => !l.isEmpty
  | .errors l => !l.isEmpty
  | .func _ => true
  | .dict d => !d.isEmpty

/-- An integer, as needed by `range`; `TypeError` for other values. -/
def Val.toNat : Val → Py Nat
  | .nat n => .ok n
  | .bool b => .ok b.toNat
  | _ => .error .type

/-- A number. -/
def Val.toReal : Val → Py ℝ
  | .real x => .ok x
  | .nat n => .ok n
  | .bool b => .ok b.toNat
  | _ => .error .type

/-- A sequence of seeds; integers or names have no length or are no seeds. -/
def Val.toSeeds : Val → Py (List Seed)
  | .seeds l => .ok l
  | _ => .error .type

/-- An array of numbers, or None. -/
def Val.toReals : Val → Py (Option (List ℝ))
  | .none => .ok Option.none
  | .reals l => .ok (some l)
  | _ => .error .attribute

/-- A list of names. -/
def Val.toNames : Val → Py (List String)
  | .names l => .ok l
  | _ => .error .type

/-- A dictionary. -/
def Val.toDict : Val → Py Kwargs
  | .dict d => .ok d
  | _ => .error .type

/-- A path, or None. -/
def Val.toPath : Val → Py (Option Path)
  | .none => .ok Option.none
  | .str s => .ok (some s)
  | _ => .error .type

/-! ### Processing and combining runs -/

section
variable [CommRing K] [LinearOrder K]

/-- The options of `birth_inds_given_contours` (data_processing.py:545-548), which gets all
of `process_samples_array` (data_processing.py:476-477). -/
def processSamplesKw (A : Argsort K) (R : Rng σ K) (samples : List (Sample K)) (kw : Kwargs) : M σ (Run K) := do
  let dupAssert := kw.get "dup_assert" (.bool false)                  -- 545
  let kw := kw.without "dup_assert"
  let dupWarn := kw.get "dup_warn" (.bool false)                      -- 546
  let kw := kw.without "dup_warn"
  M.lift (noneLeft kw)                                                -- 547
  processSamples A R samples dupAssert.truthy dupWarn.truthy

/-- `process_polychord_run` (data_processing.py:212-255). -/
def processPolychordKw {F : Type} (A : Argsort K) (R : Rng σ K) (CF : Codec F) (CI : Codec Int) (tables : Tables K)
    (texts : Texts) (fileRoot baseDir : String) (kw : Kwargs) : M σ (Run K × RunOutput F) := do
  let statsFile := kw.get "process_stats_file" (.bool true)           -- 212
  let kw := kw.without "process_stats_file"
  if kw.any (fun p => p.1 = "file_root" ∨ p.1 = "base_dir") then M.raise .type   -- given twice
  let rows ← M.lift (loadTable tables (pathJoin baseDir fileRoot ++ "_dead-birth.txt"))   -- 242
  let samples ← M.lift (tableSamples rows)
  let run ← processSamplesKw A R samples kw                           -- 243
  let out ← polychordOutput CF CI texts fileRoot baseDir statsFile.truthy
  pure (run, out)

/-- `process_multinest_run` (data_processing.py:258-300). -/
def processMultinestKw (A : Argsort K) (R : Rng σ K) (files : Tables K) (fileRoot baseDir : String) (kw : Kwargs) :
    M σ (Run K × Source) := do
  if kw.any (fun p => p.1 = "file_root" ∨ p.1 = "base_dir") then M.raise .type   -- given twice
  let dead ← M.lift (loadText files (pathJoin baseDir fileRoot ++ "dead-birth.txt"))        -- 284
  let live ← M.lift (loadText files (pathJoin baseDir fileRoot ++ "phys_live-birth.txt"))   -- 285
  let dead ← M.lift (twoDims dead)                                    -- 288
  let live ← M.lift (twoDims live)                                    -- 289
  let dead ← M.lift (tableSamples (dropCols 2 dead))                  -- 288, 290
  let live ← M.lift (tableSamples (dropCols 1 live))                  -- 289, 290
  M.assert (dead.all (fun d => live.all (fun l => decide (d.logl < l.logl))))   -- 290
  let rows ← M.lift (vstackSamples dead live)
  let run ← processSamplesKw A R rows kw                              -- 293
  M.assert (allFromPrior run)                                         -- 294
  pure (run, ⟨fileRoot, baseDir⟩)

/-- Binding of the arguments `dup_assert=False, dup_warn=False` of `check_ns_run`
(ns_run_utils.py:433). -/
def checkOptions (kw : Kwargs) : Py (Bool × Bool) := do
  noneLeft ((kw.without "dup_assert").without "dup_warn")
  .ok ((kw.get "dup_assert" (.bool false)).truthy, (kw.get "dup_warn" (.bool false)).truthy)

/-- `combine_ns_runs` (ns_run_utils.py:170-224): `check_ns_run` is the first thing called
unless there are no runs. -/
def combineRunsKw (A : Argsort K) (runs : List (Run K)) (kw : Kwargs) : M σ (Run K) :=
  match runs with
  | [] => M.raise .value                                              -- 200: np.vstack([])
  | _ => do
    let (dupAssert, dupWarn) ← M.lift (checkOptions kw)               -- 197, 223
    combineRuns A runs dupAssert dupWarn

/-- `run_dead_birth_array` (write_polychord_output.py:122-161): an argument `logl_init`
and the options of `check_ns_run`. -/
def runDeadBirthKw (A : Argsort ℝ) (r : Run ℝ) (kw : Kwargs) : M σ (List (Sample ℝ)) := do
  let init ← M.lift (kw.get "logl_init" (.real (-(10 ^ 30)))).toReal
  let (dupAssert, dupWarn) ← M.lift (checkOptions (kw.without "logl_init"))
  runDeadBirth A r init dupAssert dupWarn

end

/-! ### Error bars -/

/-- `run_bootstrap_values` (error_analysis.py:117-178). -/
def runBootstrapValuesKw (A : Argsort ℝ) (R : Rng σ ℝ) (r : Run ℝ) (settings : Option Settings)
    (ests : List (EstFunc σ)) (kw : Kwargs) : M σ (List (List (Option ℝ))) := do
  let ninitSep := kw.get "ninit_sep" (.bool false)                    -- 158
  let kw := kw.without "ninit_sep"
  let flipSkew := kw.get "flip_skew" (.bool true)                     -- 159
  let kw := kw.without "flip_skew"
  match kw.lookup "n_simulate" with
  | none => M.raise .key                                              -- 160
  | some n => do
    let kw := kw.without "n_simulate"
    let n ← M.lift n.toNat                                            -- 161: range(n_simulate)
    let seeds ← M.lift (kw.get "random_seeds" (.seeds ((List.range n).map Seed.num))).toSeeds
    let kw := kw.without "random_seeds"
    M.assert (seeds.length = n)                                       -- 162
    M.lift (noneLeft kw)                                              -- 163
    runBootstrapValues A R r settings ests n ninitSep.truthy flipSkew.truthy (some seeds)

/-- `run_std_bootstrap` (error_analysis.py:83-114). -/
def runStdBootstrapKw (A : Argsort ℝ) (R : Rng σ ℝ) (r : Run ℝ) (settings : Option Settings)
    (ests : List (EstFunc σ)) (kw : Kwargs) : M σ (List (Option ℝ)) := do
  let vals ← runBootstrapValuesKw A R r settings ests kw              -- 110
  pure (vals.map npStd)

/-- `run_ci_bootstrap` (error_analysis.py:181-221). -/
def runCiBootstrapKw (A : Argsort ℝ) (R : Rng σ ℝ) (r : Run ℝ) (settings : Option Settings)
    (ests : List (EstFunc σ)) (kw : Kwargs) : M σ (List (Option ℝ)) := do
  match kw.lookup "cred_int" with
  | none => M.raise .key                                              -- 208
  | some c => do
    let vals ← runBootstrapValuesKw A R r settings ests (kw.without "cred_int")   -- 209
    let expected ← runEstimators R r ests false                       -- 213
    let c ← M.lift c.toReal                                           -- 220
    M.lift (pyMap (fun p : Option ℝ × List (Option ℝ) => ciValue c p.1 p.2) (expected.zip vals))

/-! ### Parallel calls -/

/-- `parallel_apply` (parallel_utils.py:70-142); `f` gets the arguments before and after the
element and the keyword arguments. -/
def parallelApplyKw (f : List Val → α → List Val → Kwargs → M σ β) (xs : List α) (kw : Kwargs)
    (S : Schedule σ xs.length) : M σ (List β) := do
  let kw := kw.without "max_workers"                                  -- 109
  let parallel := kw.get "parallel" (.bool true)                      -- 110
  let kw := kw.without "parallel"
  let warn := kw.get "parallel_warning" (.bool true)                  -- 111
  let kw := kw.without "parallel_warning"
  let args := kw.get "func_args" (.tuple [])                          -- 112
  let kw := kw.without "func_args"
  let pre := kw.get "func_pre_args" (.tuple [])                       -- 113
  let kw := kw.without "func_pre_args"
  let func := kw.get "func_kwargs" (.dict [])                         -- 114
  let kw := kw.without "func_kwargs"
  let kw := kw.without "tqdm_kwargs"                                  -- 115
  M.lift (noneLeft kw)                                                -- 116
  match args, pre with                                                -- 120-123
  | .tuple args, .tuple pre => do
    parallelApply (fun x => do
        let func ← M.lift func.toDict
        f pre x args func) xs parallel.truthy warn.truthy S
  | _, _ => M.raise .assertion

/-- `process_error_helper` (data_processing.py:172-209) for a process function with the given
keyword arguments. -/
def processErrorHelperKw (proc : String → Kwargs → M σ β) (root : String) (kw : Kwargs) : M σ (Item β) :=
  if kw.any (fun p => p.1 = "root" ∨ p.1 = "base_dir" ∨ p.1 = "process_func") then M.raise .type   -- given twice
  else
    match kw.get "errors_to_handle" (.errors []) with
    | .errors l => processErrorHelper (fun root => proc root (kw.without "errors_to_handle")) (fun e => e ∈ l) root
    | _ =>                                   -- what follows `except` is not an exception
      M.tryExcept (do
          let run ← proc root (kw.without "errors_to_handle")
          pure (.done run))
        (fun _ => true) (fun _ => M.raise .type)

/-- `func_kwargs['errors_to_handle'] = ...` (data_processing.py:145): the dictionary with a new
value. -/
def setKey (kw : Kwargs) (key : String) (v : Val) : Kwargs :=
  if kw.any (fun p => p.1 = key) then kw.map (fun p => if p.1 = key then (key, v) else p) else kw ++ [(key, v)]

/-- The options given explicitly in the call of `parallel_apply` (data_processing.py:146-148),
which cannot be given a second time. -/
def batchGiven : List String := ["func", "arg_iterable", "func_args", "func_kwargs"]

/-- `batch_process_data` (data_processing.py:103-169) without caching: the
report and the runs.  `proc` is the process function with the
given name or value. -/
def batchProcessKw (proc : Val → Val → String → Kwargs → M σ β) (rootOf : β → Option String) (roots : List String)
    (kw : Kwargs) (S : Schedule σ roots.length) : M σ (List (PyErr × List Nat) × List β) := do
  let baseDir := kw.get "base_dir" (.str "chains".toList)             -- 142
  let kw := kw.without "base_dir"
  let procName := kw.get "process_func" (.func "process_polychord_run")   -- 143
  let kw := kw.without "process_func"
  let func ← M.lift (kw.get "func_kwargs" (.dict [])).toDict          -- 144
  let kw := kw.without "func_kwargs"
  let func := setKey func "errors_to_handle" (kw.get "errors_to_handle" (.errors []))   -- 145
  let kw := kw.without "errors_to_handle"
  if kw.any (fun p => p.1 ∈ batchGiven) then M.raise .type
  let data ← parallelApplyKw (fun pre root _ func =>
      if pre.isEmpty then processErrorHelperKw (proc procName baseDir) root func
      else M.raise .type) roots                                       -- errors_to_handle would be given twice
    (("func_kwargs", .dict func) :: kw) S                             -- 146
  let data ← M.lift (keyed roots rootOf data)
  pure (errorReport 0 (sortItems data) [], goodRuns (sortItems data))

/-- The caller's `func_kwargs` after a call of `batch_process_data` (data_processing.py:145). -/
def funcKwargsAfter (kw : Kwargs) : Option Kwargs :=
  match kw.lookup "func_kwargs" with
  | some (.dict func) => some (setKey func "errors_to_handle" (kw.get "errors_to_handle" (.errors [])))
  | _ => none

/-! ### Caching -/

/-- The options which `save_load_result` takes (io_utils.py:68-72). -/
def cacheOptions (kw : Kwargs) : Py CacheOpts := do
  let name ← (kw.get "save_name" .none).toPath
  .ok { saveName := name, save := (kw.lookup "save").map Val.truthy, load := (kw.lookup "load").map Val.truthy,
        overwrite := (kw.get "overwrite_existing" (.bool true)).truthy,
        warnIfError := (kw.get "warn_if_error" (.bool false)).truthy }

/-- The options left for the function. -/
def cacheRest (kw : Kwargs) : Kwargs :=
  ((((kw.without "save_name").without "save").without "load").without "overwrite_existing").without "warn_if_error"

/-- A function decorated with `save_load_result` (io_utils.py:39-97). -/
def saveLoadKw (func : Kwargs → M (Disk V τ) V) (kw : Kwargs) (env : CallEnv) : M (Disk V τ) V := do
  let o ← M.lift (cacheOptions kw)
  saveLoad (func (cacheRest kw)) o env

/-- `pickle_save` (io_utils.py:100-142) with `timing_decorator`; `line` is the line with the time.
Only the default extension is modelled. -/
def pickleSaveKw (v : V) (name : Path) (kw : Kwargs) (env : SaveEnv) (line : Path) : M (Disk V τ) Unit := do
  let printTime := kw.get "print_time" (.bool false)                  -- 26
  let kw := kw.without "print_time"
  timing (do
      let ext := kw.get "extension" (.str ".pkl".toList)              -- 117
      let kw := kw.without "extension"
      let overwrite := kw.get "overwrite_existing" (.bool true)       -- 118
      let kw := kw.without "overwrite_existing"
      M.lift (noneLeft kw)                                            -- 119
      match ext with
      | .str e => if e = ".pkl".toList then pickleSave v name overwrite.truthy env else M.raise .undefined
      | _ => M.raise .type) printTime.truthy line

/-! ### Tables of diagnostics -/

/-- `run_list_error_values` (diagnostics_tables.py:16-119) without caching. -/
def runListErrorValuesKw (A : Argsort ℝ) (R : Rng σ ℝ) (D : Distances (List Cell) Cell) (runs : List (Run ℝ))
    (ests : List (EstFunc σ)) (names : List String) (kw : Kwargs) (S1 S2 S3 : Schedule σ runs.length) :
    M σ ErrTable := do
  if kw.any (fun p => p.1 = "run_list" ∨ p.1 = "estimator_list" ∨ p.1 = "estimator_names") then M.raise .type   -- given twice
  let nSim := kw.get "n_simulate" (.nat 100)                          -- 18
  let kw := kw.without "n_simulate"
  let threadP := kw.get "thread_pvalue" (.bool false)                 -- 61
  let kw := kw.without "thread_pvalue"
  let bsDist := kw.get "bs_stat_dist" (.bool false)                   -- 62
  let kw := kw.without "bs_stat_dist"
  let parallel := kw.get "parallel" (.bool true)                      -- 63
  let kw := kw.without "parallel"
  M.lift (noneLeft kw)                                                -- 64
  let n ← M.lift nSim.toNat
  runListErrorValues A R D runs ests names n threadP.truthy bsDist.truthy parallel.truthy S1 S2 S3

/-- `estimator_values_df` (diagnostics_tables.py:122-169) without caching; the columns are named
est_0, est_1, ... by default. -/
def estimatorValuesDfKw (R : Rng σ ℝ) (runs : List (Run ℝ)) (ests : List (EstFunc σ)) (kw : Kwargs)
    (S : Schedule σ runs.length) : M σ (List String × Arr2) := do
  let names := kw.get "estimator_names" (.names ((List.range ests.length).map (fun i => "est_" ++ toString i)))   -- 157
  let kw := kw.without "estimator_names"
  let parallel := kw.get "parallel" (.bool true)                      -- 160
  let kw := kw.without "parallel"
  M.lift (noneLeft kw)                                                -- 161
  let names ← M.lift names.toNames
  let a ← estimatorValuesDf R runs ests names parallel.truthy S
  pure (names, a)

/-- `summary_df` (pandas_functions.py:123-202). -/
def summaryDfKw (a : Arr2) (kw : Kwargs) : Py Table := do
  let tv := kw.get "true_values" .none                                -- 158
  let kw := kw.without "true_values"
  let incTrue := kw.get "include_true_values" (.bool false)           -- 159
  let kw := kw.without "include_true_values"
  let incRmse := kw.get "include_rmse" (.bool false)                  -- 160
  let kw := kw.without "include_rmse"
  noneLeft kw                                                         -- 161
  let tv ← tv.toReals
  summaryDf a tv incTrue.truthy incRmse.truthy

/-- `efficiency_gain_df` (pandas_functions.py:205-306). -/
def efficiencyGainDfKw (names : List String) (values : List (List (List Cell))) (nnames : Nat) (kw : Kwargs) :
    Py (List (String × Table) × Table) := do
  let tv := kw.get "true_values" .none                                -- 249
  let kw := kw.without "true_values"
  let incTrue := kw.get "include_true_values" (.bool false)           -- 250
  let kw := kw.without "include_true_values"
  let incRmse := kw.get "include_rmse" (.bool false)                  -- 251
  let kw := kw.without "include_rmse"
  let nsamp := kw.get "adjust_nsamp" .none                            -- 252
  let kw := kw.without "adjust_nsamp"
  noneLeft kw                                                         -- 253
  let nsamp ← nsamp.toReals
  let tv ← tv.toReals
  efficiencyGainDf names values nnames tv incTrue.truthy incRmse.truthy nsamp

/-- `implementation_std` (error_analysis.py:267-332). -/
def implementationStdKw (R : Rng σ ℝ) (N : NormalRng σ) (rows : List (ℝ × ℝ × ℝ × ℝ)) (kw : Kwargs) :
    M σ (List ImpRow) := do
  let nsim := kw.get "nsim" (.nat 1000000)                            -- 307
  let kw := kw.without "nsim"
  let seed := kw.get "random_seed" (.nat 0)                           -- 308
  let kw := kw.without "random_seed"
  M.lift (noneLeft kw)                                                -- 309
  let nsim ← M.lift nsim.toNat
  let seed ← M.lift seed.toNat      -- random_seed=None is in Model/ImpSeed
  implementationStd R N nsim (.num seed) rows

/-- `run_list_error_summary` (diagnostics_tables.py:231-244): the options of the summary are
taken out, the rest is handed to the decorated `run_list_error_values`. -/
def runListErrorSummaryKw (A : Argsort ℝ) (R : Rng (Disk ErrTable τ) ℝ) (N : NormalRng (Disk ErrTable τ)) (nsim : Nat)
    (D : Distances (List Cell) Cell) (runs : List (Run ℝ)) (ests : List (EstFunc (Disk ErrTable τ)))
    (names : List String) (nSim : Nat) (kw : Kwargs) (env : CallEnv)
    (S1 S2 S3 : Schedule (Disk ErrTable τ) runs.length) : M (Disk ErrTable τ) SumTable := do
  let tv := kw.get "true_values" .none                                -- 237
  let kw := kw.without "true_values"
  let incTrue := kw.get "include_true_values" (.bool false)           -- 238
  let kw := kw.without "include_true_values"
  let incRmse := kw.get "include_rmse" (.bool false)                  -- 239
  let kw := kw.without "include_rmse"
  let t ← saveLoadKw (fun rest => runListErrorValuesKw A R D runs ests names (("n_simulate", .nat nSim) :: rest) S1 S2 S3)
    kw env                                                            -- 240
  let tv ← M.lift tv.toReals
  errorValuesSummary R N nsim t tv incTrue.truthy incRmse.truthy      -- 242

/-! ### Dummy data -/

/-- `seed`: False for no seeding. -/
def Val.toOptSeed : Val → Py (Option Nat)
  | .bool false => .ok Option.none
  | .bool true => .ok (some 1)
  | .nat n => .ok (some n)
  | _ => .error .type

/-- `logl_start`: a number or -inf. -/
def Val.toStart : Val → Py (WithBot ℝ)
  | .negInf => .ok ⊥
  | .real x => .ok (x : WithBot ℝ)
  | .nat n => .ok (((n : ℝ)) : WithBot ℝ)
  | _ => .error .type

/-- `get_dummy_run` (dummy_data.py:50-96). -/
def getDummyRunKw (A : Argsort ℝ) (R : Rng σ ℝ) (nthread nsamples : Nat) (kw : Kwargs) : M σ (Run ℝ) := do
  let seed := kw.get "seed" (.bool false)                             -- 73
  let kw := kw.without "seed"
  let ndim := kw.get "ndim" (.nat 2)                                  -- 74
  let kw := kw.without "ndim"
  let start := kw.get "logl_start" .negInf                            -- 75
  let kw := kw.without "logl_start"
  let range := kw.get "logl_range" (.nat 1)                           -- 76
  let kw := kw.without "logl_range"
  M.lift (noneLeft kw)                                                -- 77
  let seed ← M.lift seed.toOptSeed
  let ndim ← M.lift ndim.toNat
  let start ← M.lift start.toStart
  let range ← M.lift range.toReal
  getDummyRun A R nthread nsamples ndim seed start range

/-- `count_samples` (estimators.py:32-52). -/
def countSamplesKw (r : Run ℝ) (kw : Kwargs) : Py ℝ := do
  noneLeft ((kw.without "logw").without "simulate")                   -- 48-50
  .ok (countSamples r)

end
end Nestcheck
