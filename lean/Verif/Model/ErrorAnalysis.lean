import Verif.Model.Estimators

/-
Model of nestcheck/error_analysis.py, in exact real arithmetic.

The arrays of estimator values can contain nan (`none`).  Keyword arguments
are ordinary arguments here; see Model/Kwargs for those which are missing or
unexpected.
-/

namespace Nestcheck

/-- The argument `random_seed` of `bootstrap_resample_run`: `False`, `None` (with
the entropy the operating system provides) or an integer. -/
inductive Seed where
  | keep
  | os (entropy : Nat)
  | num (n : Nat)
  deriving DecidableEq

/-- `run['settings']`: only the member `ninit`, which may be missing, is used. -/
structure Settings where
  ninit : Option Nat
  deriving DecidableEq

section bootstrap
variable {σ K : Type} [CommRing K] [LinearOrder K]

/-- `np.random.randint(lo, hi, n)`: an empty array for `n = 0`, `ValueError` for a
negative `n` or an empty range. -/
def npRandint (R : Rng σ K) (lo hi : Nat) (n : Int) : M σ (List Nat) :=
  if n < 0 then M.raise .value
  else if n = 0 then pure []
  else if hi ≤ lo then M.raise .value
  else M.draw (R.randint lo hi n.toNat)

/-- The indexes drawn with `ninit_sep=True` (error_analysis.py:55-62). -/
def separateInds (R : Rng σ K) (tmm : Option (List (WithBot K × K))) (nthreads ninit : Nat) :
    M σ (List Nat) :=
  match tmm with
  | none => M.raise .type
  | some tmm => do
    M.assert ((tmm.take ninit).all (fun p => decide (p.1 = ⊥)))       -- 56
    let inds ← npRandint R 0 ninit ninit                              -- 60
    let more ← npRandint R ninit nthreads ((nthreads : Int) - ninit)  -- 61
    pure (inds ++ more)

/-- The indexes of the threads of a replication (error_analysis.py:53-70). -/
def bootstrapInds (R : Rng σ K) (tmm : Option (List (WithBot K × K))) (settings : Option Settings)
    (nthreads : Nat) (ninitSep : Bool) : M σ (List Nat) :=
  if ninitSep then
    match settings.bind (·.ninit) with
    | some ninit => separateInds R tmm nthreads ninit
    | none => do                                                      -- 63, KeyError
      M.warn .noNinit
      npRandint R 0 nthreads nthreads
  else npRandint R 0 nthreads nthreads                                -- 70

/-- `[threads[i] for i in inds]` (error_analysis.py:71) -/
def selectThreads (threads : List (Run K)) (inds : List Nat) : Py (List (Run K)) :=
  if inds.all (fun i => decide (i < threads.length)) then .ok (gather threads inds)
  else .error .index

/-- `if random_seed is not False: np.random.seed(random_seed)`
(error_analysis.py:46-49) -/
def seedWith (R : Rng σ K) (seed : Seed) : M σ Unit :=
  match seed with
  | .keep => pure ()
  | .os e => M.setState (R.seedOS e)
  | .num n => npSeed R n

/-- `if random_seed is not False: np.random.set_state(state)`
(error_analysis.py:76-79) -/
def restoreState (seed : Seed) (state : σ) : M σ Unit :=
  match seed with
  | .keep => pure ()
  | _ => M.setState state

/-- `if threads is None: threads = get_run_threads(ns_run)`
(error_analysis.py:50-51) -/
def threadsOr (r : Run K) (threads : Option (List (Run K))) : M σ (List (Run K)) :=
  match threads with
  | some ts => pure ts
  | none => getRunThreads r

/-- `bootstrap_resample_run` (error_analysis.py:17-80); the result is the new run
and its `settings`. -/
def bootstrapResampleRun (A : Argsort K) (R : Rng σ K) (r : Run K) (settings : Option Settings)
    (threads : Option (List (Run K))) (ninitSep : Bool) (seed : Seed) :
    M σ (Run K × Option Settings) := do
  let state ← M.getState                                              -- 48
  seedWith R seed                                                     -- 49
  let threads ← threadsOr r threads                                   -- 51
  let inds ← bootstrapInds R r.tmm settings threads.length ninitSep   -- 53-70
  let temp ← M.lift (selectThreads threads inds)                      -- 71
  let run ← combineThreads A R temp false                             -- 72
  restoreState seed state                                             -- 79
  pure (run, settings)                                                -- 74

end bootstrap

noncomputable section
variable {σ : Type}

/-- The values if none of them is nan. -/
def noNan (xs : List (Option ℝ)) : Option (List ℝ) := allSome xs

/-- `np.mean(xs)`: nan for an empty array. -/
def npMean (xs : List (Option ℝ)) : Option ℝ :=
  match noNan xs with
  | some [] => none
  | some ys => some (ys.sum / ys.length)
  | none => none

/-- `np.std(xs, ddof=1)`: nan for less than two values. -/
def npStd (xs : List (Option ℝ)) : Option ℝ :=
  match noNan xs with
  | some ys =>
    if ys.length ≤ 1 then none
    else some (Real.sqrt ((ys.map (fun y => (y - ys.sum / ys.length) ^ 2)).sum / (ys.length - 1)))
  | none => none

/-- An array of shape `(n, cols.length)` filled column by column. -/
def fromColumns (n : Nat) (cols : List (List (Option ℝ))) : List (List (Option ℝ)) :=
  (List.range n).map (fun j => cols.map (fun c => (c[j]?).join))

/-- The loop of `run_bootstrap_values` (error_analysis.py:167-173), giving the columns
of the array. -/
def bootstrapColumns (A : Argsort ℝ) (R : Rng σ ℝ) (r : Run ℝ) (settings : Option Settings)
    (threads : List (Run ℝ)) (ninitSep : Bool) (ests : List (EstFunc σ)) :
    List Seed → M σ (List (List (Option ℝ)))
  | [] => pure []
  | s :: ss => do
    let temp ← bootstrapResampleRun A R r settings (some threads) ninitSep s   -- 168
    let col ← runEstimators R temp.1 ests false                       -- 171
    let cols ← bootstrapColumns A R r settings threads ninitSep ests ss
    pure (col :: cols)

/-- `bs_values[i, :] = (2 * mu) - bs_values[i, :]` (error_analysis.py:177) -/
def flipRow (row : List (Option ℝ)) : List (Option ℝ) :=
  row.map (fun x => match npMean row, x with
    | some mu, some x => some (2 * mu - x)
    | _, _ => none)

/-- `run_bootstrap_values` (error_analysis.py:117-178); `seeds = none` is the default
`range(n_simulate)`. -/
def runBootstrapValues (A : Argsort ℝ) (R : Rng σ ℝ) (r : Run ℝ) (settings : Option Settings)
    (ests : List (EstFunc σ)) (nSim : Nat) (ninitSep flipSkew : Bool) (seeds : Option (List Seed)) :
    M σ (List (List (Option ℝ))) := do
  let seeds := seeds.getD ((List.range nSim).map Seed.num)            -- 161
  M.assert (seeds.length = nSim)                                      -- 162
  let threads ← getRunThreads r                                       -- 165
  let cols ← bootstrapColumns A R r settings threads ninitSep ests seeds
  let vals := fromColumns ests.length cols
  pure (if flipSkew then vals.map flipRow else vals)                  -- 174-178

/-- `run_std_bootstrap` (error_analysis.py:83-114). -/
def runStdBootstrap (A : Argsort ℝ) (R : Rng σ ℝ) (r : Run ℝ) (settings : Option Settings)
    (ests : List (EstFunc σ)) (nSim : Nat) (ninitSep flipSkew : Bool) (seeds : Option (List Seed)) :
    M σ (List (Option ℝ)) := do
  let vals ← runBootstrapValues A R r settings ests nSim ninitSep flipSkew seeds
  pure (vals.map npStd)

/-- `(np.asarray(range(n)) + 0.5) / n` (error_analysis.py:215). -/
def cdfPoints (n : Nat) : List ℝ := (List.range n).map (fun i : Nat => ((i : ℝ) + 0.5) / (n : ℝ))

/-- `2 * expected - np.interp(1. - cred_int, cdf, np.sort(row))`
(error_analysis.py:217-220).  A nan in the row gives nan (numpy sorts nan to the end of
the row, so for some `cred_int` it returns a number). -/
def ciValue (credInt : ℝ) (expected : Option ℝ) (row : List (Option ℝ)) : Py (Option ℝ) :=
  match noNan row with
  | none => .ok none
  | some ys => do
    let q ← interp (1 - credInt) (cdfPoints ys.length) (ys.insertionSort (· ≤ ·))
    pure (expected.map (fun e => e * 2 - q))

/-- `run_ci_bootstrap` (error_analysis.py:181-221). -/
def runCiBootstrap (A : Argsort ℝ) (R : Rng σ ℝ) (r : Run ℝ) (settings : Option Settings)
    (ests : List (EstFunc σ)) (credInt : ℝ) (nSim : Nat) (ninitSep flipSkew : Bool)
    (seeds : Option (List Seed)) : M σ (List (Option ℝ)) := do
  let vals ← runBootstrapValues A R r settings ests nSim ninitSep flipSkew seeds   -- 209
  let expected ← runEstimators R r ests false                         -- 213
  M.lift (pyMap (fun p : Option ℝ × List (Option ℝ) => ciValue credInt p.1 p.2) (expected.zip vals))

/-- The loop of `run_std_simulate` (error_analysis.py:254-256). -/
def simulateColumns (R : Rng σ ℝ) (r : Run ℝ) (ests : List (EstFunc σ)) :
    Nat → M σ (List (List (Option ℝ)))
  | 0 => pure []
  | n + 1 => do
    let col ← runEstimators R r ests true
    let cols ← simulateColumns R r ests n
    pure (col :: cols)

/-- `run_std_simulate` (error_analysis.py:224-260). -/
def runStdSimulate (R : Rng σ ℝ) (r : Run ℝ) (ests : List (EstFunc σ)) (nSim : Option Nat) :
    M σ (List (Option ℝ)) :=
  match nSim with
  | none => M.raise .assertion                                        -- 252
  | some n => do
    let cols ← simulateColumns R r ests n
    pure ((fromColumns ests.length cols).map npStd)                   -- 257-259

/-- `np.sqrt(np.abs(v)) * np.sign(v)` (error_analysis.py:315, 328) -/
def signedRoot (v : ℝ) : ℝ :=
  Real.sqrt |v| * (if 0 < v then 1 else if v < 0 then -1 else 0)

/-- `imp_std` for one element (error_analysis.py:314-317). -/
def impStd (valsStd bsStd : ℝ) : ℝ :=
  let s := signedRoot (valsStd ^ 2 - bsStd ^ 2)
  if s ≤ 0 then 0 else s

/-- The draws of `np.random.normal(loc, scale, size)` as a function of the random state. -/
structure NormalRng (σ : Type) where
  normal : ℝ → ℝ → Nat → σ → List ℝ × σ
  normal_length : ∀ a b n s, (normal a b n s).1.length = n

/-- `np.random.normal(loc, scale, size)` raises `ValueError` for a negative scale. -/
def npNormal (N : NormalRng σ) (loc scale : ℝ) (n : Nat) : M σ (List ℝ) :=
  if scale < 0 then M.raise .value else M.draw (N.normal loc scale n)

/-- One element of the result of `implementation_std`: the standard deviation, its
uncertainty, the fraction and its uncertainty; nan and infinities are `none`. -/
structure ImpRow where
  std : ℝ
  stdU : Option ℝ
  frac : Option ℝ
  fracU : Option ℝ

/-- `x / y`, nan or infinite if `y = 0`. -/
def nanDiv (x y : ℝ) : Option ℝ := if y = 0 then none else some (x / y)

/-- `np.random.seed(random_seed)` (error_analysis.py:324); here `False` is the
integer 0. -/
def seedAlways (R : Rng σ ℝ) (seed : Seed) : M σ Unit :=
  match seed with
  | .keep => npSeed R 0
  | .os e => M.setState (R.seedOS e)
  | .num n => npSeed R n

/-- One element of `implementation_std` (error_analysis.py:314-331). -/
def implementationElt (R : Rng σ ℝ) (N : NormalRng σ) (nsim : Nat) (seed : Seed) (v vu b bu : ℝ) :
    M σ ImpRow := do
  let state ← M.getState                                              -- 323
  seedAlways R seed                                                   -- 324
  let simV ← npNormal N v vu nsim                                    -- 325
  let simB ← npNormal N b bu nsim                                    -- 326
  let simImp := List.zipWith (fun x y => signedRoot (x ^ 2 - y ^ 2)) simV simB    -- 327-328
  M.setState state                                                    -- 331
  pure { std := impStd v b, stdU := npStd (simImp.map some),
         frac := nanDiv (impStd v b) v,
         fracU := npStd (List.zipWith nanDiv simImp simV) }

/-- `implementation_std` (error_analysis.py:267-332), as a list of elements
`(vals_std, vals_std_u, bs_std, bs_std_u)`. -/
def implementationStd (R : Rng σ ℝ) (N : NormalRng σ) (nsim : Nat) (seed : Seed) :
    List (ℝ × ℝ × ℝ × ℝ) → M σ (List ImpRow)
  | [] => pure []
  | (v, vu, b, bu) :: xs => do
    let y ← implementationElt R N nsim seed v vu b bu
    let ys ← implementationStd R N nsim seed xs
    pure (y :: ys)

/-- The list comprehension in `run_thread_values` (error_analysis.py:351). -/
def threadColumns (R : Rng σ ℝ) (ests : List (EstFunc σ)) : List (Run ℝ) → M σ (List (List (Option ℝ)))
  | [] => pure []
  | t :: ts => do
    let col ← runEstimators R t ests false
    let cols ← threadColumns R ests ts
    pure (col :: cols)

/-- `run_thread_values` (error_analysis.py:335-355). -/
def runThreadValues (R : Rng σ ℝ) (r : Run ℝ) (ests : List (EstFunc σ)) :
    M σ (List (List (Option ℝ))) := do
  let threads ← getRunThreads r                                       -- 350
  let cols ← threadColumns R ests threads                             -- 351
  if cols.isEmpty then M.raise .value                                 -- 353, nothing to stack
  else do
    let vals := fromColumns ests.length cols
    M.assert (vals.length = ests.length ∧ vals.all (fun row => decide (row.length = threads.length)))
    pure vals

end

section pairwise
variable {α β : Type}

/-- The distances used by `statistical_distances`, computed by scipy. -/
structure Distances (α β : Type) where
  ksPvalue : α → α → β
  ksStatistic : α → α → β
  earthMover : α → α → β
  energy : α → α → β

/-- `statistical_distances` (error_analysis.py:397-423). -/
def statisticalDistances (D : Distances α β) (x y : α) (emd energy : Bool) : List β :=
  [D.ksPvalue x y, D.ksStatistic x y] ++ (if emd then [D.earthMover x y] else []) ++
    (if energy then [D.energy x y] else [])

/-- `str((i, j))` -/
def pairName (i j : Nat) : String := "(" ++ toString i ++ ", " ++ toString j ++ ")"

/-- The rows of the data frame in `pairwise_distances` (error_analysis.py:378-386). -/
def pairRows (D : Distances α β) (xs : List α) (emd energy : Bool) : List (String × List β) :=
  (xs.zipIdx).flatMap (fun p => ((xs.zipIdx).filter (fun q => decide (q.2 < p.2))).map (fun q =>
    (pairName p.2 q.2, statisticalDistances D p.1 q.1 emd energy)))

/-- The column names (error_analysis.py:387-391). -/
def distanceNames (emd energy : Bool) : List String :=
  ["ks pvalue", "ks distance"] ++ (if emd then ["earth mover distance"] else []) ++
    (if energy then ["energy distance"] else [])

/-- `pairwise_distances` (error_analysis.py:358-394): the series after `unstack`, with
index levels calculation type and run. -/
def pairwiseDistances (D : Distances α β) (xs : List α) (emd energy : Bool) :
    List ((String × String) × β) :=
  ((distanceNames emd energy).zipIdx).flatMap (fun c =>
    (pairRows D xs emd energy).filterMap (fun row => (row.2[c.2]?).map (fun v => ((c.1, row.1), v))))

end pairwise
end Nestcheck
