import Verif.Model.DeadBirth
import Verif.Model.ErrorAnalysis
import Verif.Model.Stats

/-
write_polychord_output.py: write_run_output.

`fmt` (line 74) enters as the function `rd`: `rd x` is the number `np.loadtxt` reads from
`fmt % x`.  Files of numbers are modelled by the numbers read from them.  `run['output']` is
part of the state, since the function changes it.  Its numbers are of a type `F` of floats;
`fl` makes them from the exact values of the estimators (`none` is nan).  A run without the key 'output' is in Model/KwargsWrite;
failures of the file system are not modelled.
-/

namespace Nestcheck
noncomputable section
variable {σ α F : Type}

/-- What `write_run_output` changes: the files, `run['output']` and the random state. -/
structure Written (σ F : Type) where
  tables : Tables ℝ
  texts : Texts
  output : StatsIn F
  rng : σ

/-- A computation which only uses the random state. -/
def onRng (f : M σ α) : M (Written σ F) α := fun w =>
  ((f ⟨w.rng.rng, w.warns⟩).1,
    ⟨{ w.rng with rng := (f ⟨w.rng.rng, w.warns⟩).2.rng }, (f ⟨w.rng.rng, w.warns⟩).2.warns⟩)

/-- `np.savetxt(name, rows, fmt=fmt)` -/
def saveTable (rd : ℝ → ℝ) (name : String) (rows : List (List ℝ)) : M (Written σ F) Unit := do
  let s ← M.getState
  M.setState { s with
    tables := fun n => if n = name then some (rows.map (·.map rd)) else s.tables n }

/-- An assignment to members of `run['output']`. -/
def setOutput (f : StatsIn F → StatsIn F) : M (Written σ F) Unit := do
  let s ← M.getState
  M.setState { s with output := f s.output }

/-- The keyword arguments (write_polychord_output.py:69-76). -/
structure WriteOpts where
  writeDead : Bool := true
  writeStats : Bool := true
  posteriors : Bool := false
  equals : Bool := false
  meansErrs : Bool := true
  nSim : Nat := 100
  loglInit : ℝ := -10 ^ 30

/-- The file root (write_polychord_output.py:79-82). -/
def outputRoot (d : StatsIn F) : Py String :=
  match d.fileRoot, d.baseDir with
  | some root, some dir => .ok (pathJoin dir root)
  | _, _ => .error .assertion

/-- A row of the array made by `run_dead_birth_array`. -/
def sampleRow (s : Sample ℝ) : List ℝ := s.theta ++ [s.logl, s.birth]

/-- `run['theta'].shape[1]`.  It is only used for runs with samples. -/
def thetaDim (run : Run ℝ) : Nat := (run.theta.head?.map List.length).getD 0

/-- The files of dead points (write_polychord_output.py:83-86).  A run with the key
'settings' is rejected by `check_ns_run_members` (ns_run_utils.py:485). -/
def writeDeadFiles (A : Argsort ℝ) (rd : ℝ → ℝ) (run : Run ℝ) (settings : Option Settings) (loglInit : ℝ)
    (root : String) : M (Written σ F) Unit := do
  (if settings.isSome then M.raise .assertion else pure () : M (Written σ F) Unit)
  let samples ← onRng (runDeadBirth A run loglInit false false)
  saveTable rd (root ++ "_dead-birth.txt") (samples.map sampleRow)
  saveTable rd (root ++ "_dead.txt") (dropCols 1 (samples.map sampleRow))

/-- The weights and the array of the posterior files (write_polychord_output.py:87-92). -/
def posteriorArray (R : Rng σ ℝ) (run : Run ℝ) : M (Written σ F) (List ℝ × List (List ℝ)) := do
  let w ← onRng (getWRel R run false)
  if run.theta.length ≠ w.length then M.raise .value                  -- 90
  else pure (w, List.zipWith (fun w (p : ℝ × List ℝ) => w :: (-2 * p.1) :: p.2) w (run.logl.zip run.theta))

/-- The file [root].txt (write_polychord_output.py:93-97). -/
def writePosteriors (rd : ℝ → ℝ) (posteriors : Bool) (post : List (List ℝ)) (root : String) :
    M (Written σ F) Unit :=
  if posteriors then do
    saveTable rd (root ++ ".txt") post
    setOutput (fun d => { d with nposterior := some post.length })
  else setOutput (fun d => { d with nposterior := some 0 })

/-- `np.where(w_rel > np.random.random(w_rel.shape[0]))[0]` (write_polychord_output.py:99). -/
def equalInds (w us : List ℝ) : List Nat := whereIdx (fun p : ℝ × ℝ => decide (p.1 > p.2)) (w.zip us)

/-- The file [root]_equal_weights.txt (write_polychord_output.py:98-104). -/
def writeEquals (R : Rng σ ℝ) (rd : ℝ → ℝ) (equals : Bool) (w : List ℝ) (post : List (List ℝ)) (root : String) :
    M (Written σ F) Unit :=
  if equals then do
    let us ← onRng (M.draw (R.uniform w.length))
    let inds := equalInds w us
    saveTable rd (root ++ "_equal_weights.txt") ((gather post inds).map (·.drop 1))
    setOutput (fun d => { d with nequals := some inds.length })
  else setOutput (fun d => { d with nequals := some 0 })

/-- The estimators of the .stats file (write_polychord_output.py:109-111). -/
def statsEstimators (A : Argsort ℝ) (R : Rng σ ℝ) (run : Run ℝ) : List (EstFunc σ) :=
  Estimator.call A R .logz ::
    (List.range (thetaDim run)).map (fun i => Estimator.call A R (.paramMean i false))

/-- The evidence and the means of the parameters with their uncertainties
(write_polychord_output.py:107-118). -/
def writeMeansErrs (A : Argsort ℝ) (R : Rng σ ℝ) (fl : Option ℝ → F) (run : Run ℝ) (settings : Option Settings) (nSim : Nat) :
    M (Written σ F) Unit := do
  let ests := statsEstimators A R run
  let values ← onRng (runEstimators R run ests false)                 -- 112
  let stds ← onRng (runStdBootstrap A R run settings ests nSim false true none)   -- 113, flip_skew=True
  setOutput (fun d => { d with
    logZ := values.head?.map fl, logZerr := stds.head?.map fl,
    paramMeans := some (values.tail.map fl), paramMeanErrs := some (stds.tail.map fl) })

/-- The .stats file (write_polychord_output.py:105-119). -/
def writeStatsPart (A : Argsort ℝ) (R : Rng σ ℝ) (fl : Option ℝ → F) (CF : Codec F) (CI : Codec Int)
    (run : Run ℝ) (settings : Option Settings) (opts : WriteOpts) : M (Written σ F) Unit :=
  if opts.writeStats then do
    setOutput (fun d => { d with ndead := some run.logl.length })     -- 106
    (if opts.meansErrs then writeMeansErrs A R fl run settings opts.nSim else pure () : M (Written σ F) Unit)
    let s ← M.getState
    let res ← M.lift (writeStats CF CI (fl (some 0)) s.texts s.output)     -- 119
    M.setState { s with texts := res.2 }
  else pure ()

/-- `write_run_output` (write_polychord_output.py:16-119). -/
def writeRun (A : Argsort ℝ) (R : Rng σ ℝ) (rd : ℝ → ℝ) (fl : Option ℝ → F) (CF : Codec F) (CI : Codec Int)
    (run : Run ℝ) (settings : Option Settings) (opts : WriteOpts) : M (Written σ F) Unit := do
  let s ← M.getState
  let root ← M.lift (outputRoot s.output)                             -- 79-82
  (if opts.writeDead then writeDeadFiles A rd run settings opts.loglInit root else pure () : M (Written σ F) Unit)
  let wp ← (if opts.equals || opts.posteriors then posteriorArray R run else pure ([], []) :
    M (Written σ F) (List ℝ × List (List ℝ)))
  writePosteriors rd opts.posteriors wp.2 root
  writeEquals R rd opts.equals wp.1 wp.2 root
  writeStatsPart A R fl CF CI run settings opts

end
end Nestcheck
