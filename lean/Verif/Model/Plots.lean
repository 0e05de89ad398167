import Mathlib.Analysis.SpecialFunctions.Trigonometric.Basic
import Verif.Model.ErrorAnalysis
import Verif.Model.Pandas

/-
Model of nestcheck/plots.py, in exact real arithmetic.

Modelled are the data that are drawn, and the use of the random state; what matplotlib and
fgivenx do with the data is not (they are taken not to raise, and not to use the global
random state).  The keyword arguments are in Model/PlotsKwargs.
`kde_plot_df` is in Model/KdePlot.
-/

namespace Nestcheck
noncomputable section
variable {σ : Type}

/-! ### weighted_1d_gaussian_kde -/

/-- `np.sqrt(x)`; `undefined` where numpy gives nan. -/
def npSqrt (x : ℝ) : Py ℝ := if x < 0 then .error .undefined else .ok (Real.sqrt x)

/-- `np.exp(-0.5 * ((x - s) / sig) ** 2) / np.sqrt(2 * np.pi * (sig ** 2))` (plots.py:761-762) -/
def kdeEnergy (sig x s : ℝ) : Py ℝ := do
  let z ← npDiv (x - s) sig
  npDiv (Real.exp (-0.5 * z ^ 2)) (Real.sqrt (2 * Real.pi * sig ^ 2))

/-- One element of `np.sum(energy * weights[:, np.newaxis], axis=0)` (plots.py:763) -/
def kdeAt (sig : ℝ) (samples w : List ℝ) (x : ℝ) : Py ℝ := do
  let energy ← pyMap (kdeEnergy sig x) samples
  pure (List.zipWith (· * ·) energy w).sum

/-- The bandwidth (plots.py:750-758) for normalised weights. -/
def kdeBandwidth (samples w : List ℝ) : Py ℝ := do
  let nz := w.filter (fun x => decide (x ≠ 0))                        -- 750
  let logs ← pyMap npLog nz
  let neff := Real.exp (-1 * (List.zipWith (· * ·) nz logs).sum)      -- 751
  let mu := (List.zipWith (· * ·) w samples).sum                      -- 753
  let var := (List.zipWith (fun w s => w * (s - mu) ^ 2) w samples).sum   -- 754
  let c ← npDiv neff (neff - 1)                                       -- 755
  let sd ← npSqrt (var * c)
  pure (sd * neff ^ (-1 / 5 : ℝ))                                     -- 757-758

/-- `weighted_1d_gaussian_kde` (plots.py:708-764): the result, and the content of the array
`weights` afterwards, which is normalised in place (plots.py:749; floats are
assumed).  For empty `samples` (where
numpy warns and returns zeros) it is `undefined`. -/
def weightedKde (x samples weights : List ℝ) : Py (List ℝ × List ℝ) :=
  if samples.length ≠ weights.length then .error .assertion           -- 747
  else do
    let w ← pyMap (fun a => npDiv a weights.sum) weights              -- 749
    let sig ← kdeBandwidth samples w
    let result ← pyMap (kdeAt sig samples w) x                        -- 760-763
    pure (result, w)

/-! ### Samples for fgivenx -/

/-- One row of `samples_array` (plots.py:659-663): `len` places filled with nan, the first of which
then hold alternately the values of the function and the weights. -/
def packRow (len : Nat) (f w : List Cell) : List Cell :=
  assignAt (assignAt (List.replicate len none) ((List.range f.length).map (2 * ·)) f)
    ((List.range w.length).map (fun i => 2 * i + 1)) w

/-- `a[::2]` -/
def everySecond {α : Type} : List α → List α
  | [] => []
  | [a] => [a]
  | a :: _ :: l => a :: everySecond l

/-- `alternate_helper` (plots.py:699-705). -/
def alternateHelper {α β : Type} (func : α → List ℝ → List ℝ → β) (x : α) (alt : List Cell) : β :=
  let samps := alt.filterMap (fun c => c)                                       -- 702
  func x (everySecond samps) (everySecond (samps.drop 1))             -- 703-705

/-! ### rel_posterior_mass -/

/-- `np.trapz(y, x=x)` -/
def trapz (y x : List ℝ) : ℝ :=
  (List.zipWith (fun d s => d * s / 2) (diff x) (List.zipWith (· + ·) (y.drop 1) y.dropLast)).sum

/-- `rel_posterior_mass` (plots.py:767-790).  `ValueError` for empty arrays and for arrays of different
lengths (broadcasting arrays of length one is ignored). -/
def relPosteriorMass (logx logl : List ℝ) : Py (List ℝ) :=
  if logx.length ≠ logl.length then .error .value
  else do
    let w ← relWeights (List.zipWith (· + ·) logx logl)               -- 787-788
    pyMap (fun x => npDiv x |trapz w logx|) w                         -- 789

/-! ### plot_run_nlive -/

/-- The members of a run used by `plot_run_nlive`: `logx` is optional. -/
structure PlotRun where
  logl : List ℝ
  nlive : List Int
  logx : Option (List ℝ)

/-- The array `logx` (plots.py:89-95).  The function given by the caller is taken to return a new array. -/
def plotLogx (R : Rng σ ℝ) (given : Option (List ℝ → List ℝ)) (r : PlotRun) : M σ (List ℝ) :=
  match r.logx, given with
  | some x, _ => pure x
  | none, some f => pure (f r.logl)
  | none, none => getLogx R r.nlive false

/-- What is drawn for a run: the line, the lowest logx and the area under the line. -/
structure RunLine where
  x : List ℝ
  nlive : List Int
  last : ℝ
  area : ℝ

/-- The loop body for one run (plots.py:88-113): what is drawn, and the run afterwards (`logx[0] = 0`
changes the array of the run if it has one). -/
def plotOneRun (R : Rng σ ℝ) (given : Option (List ℝ → List ℝ)) (r : PlotRun) : M σ (RunLine × PlotRun) := do
  let logx ← plotLogx R given r
  let last ← M.lift ((logx.getLast?).elim (.error .index) .ok)        -- 96
  let x := logx.set 0 0                                               -- 97
  if x.length ≠ r.nlive.length then M.raise .value                    -- 101, ax.plot
  else pure (⟨x, r.nlive, last, -trapz (r.nlive.map (fun n : Int => (n : ℝ))) x⟩,
    { r with logx := r.logx.map (fun _ => x) })

/-- The loop over the runs of one method. -/
def plotRuns (R : Rng σ ℝ) (given : Option (List ℝ → List ℝ)) : List PlotRun → M σ (List (RunLine × PlotRun))
  | [] => pure []
  | r :: rs => do
    let y ← plotOneRun R given r
    let ys ← plotRuns R given rs
    pure (y :: ys)

/-- A dictionary of lists of runs. -/
abbrev RunDict := List (String × List PlotRun)

/-- `run_dict[name]` -/
def RunDict.get (d : RunDict) (name : String) : Py (List PlotRun) :=
  (d.lookup name).elim (.error .key) .ok

/-- The dictionary after the arrays of the runs of one method have been changed. -/
def RunDict.update (d : RunDict) (name : String) (rs : List PlotRun) : RunDict :=
  d.map (fun e => if e.1 = name then (e.1, rs) else e)

/-- The loop over the methods (plots.py:86-113): the lines of each method and the dictionary
afterwards. -/
def plotMethods (R : Rng σ ℝ) (given : Option (List ℝ → List ℝ)) :
    List String → RunDict → M σ (List (String × List RunLine) × RunDict)
  | [], d => pure ([], d)
  | name :: names, d => do
    let runs ← M.lift (RunDict.get d name)
    let ys ← plotRuns R given runs
    let rest ← plotMethods R given names (RunDict.update d name (ys.map Prod.snd))
    pure ((name, ys.map Prod.fst) :: rest.1, rest.2)

/-- `np.mean(xs)`; `undefined` for an empty array. -/
def realMean (xs : List ℝ) : Py ℝ := npDiv xs.sum xs.length

/-- The average over all keys (plots.py:810, 818): `ValueError` for an empty dictionary. -/
def averageAll (dict : List (String × List ℝ)) : Py ℝ :=
  if dict.isEmpty then .error .value else realMean (dict.flatMap Prod.snd)

/-- `average_by_key` (plots.py:793-818). -/
def averageByKey (dict : List (String × List ℝ)) (key : Option String) : Py ℝ :=
  match key with
  | none => averageAll dict
  | some k => match dict.lookup k with
    | some xs => realMean xs
    | none => averageAll dict

/-- `np.linspace(a, b, n)` -/
def linspace (a b : ℝ) (n : Nat) : List ℝ :=
  (List.range n).map (fun i : Nat => a + (i : ℝ) * ((b - a) / ((n : ℝ) - 1)))

/-- `integrals_dict` (plots.py:84, 113): a method named twice has one entry. -/
def integralsDict (lines : List (String × List RunLine)) : List (String × List ℝ) :=
  lines.foldl (fun d l =>
    let v := l.2.map RunLine.area
    if d.any (fun e => decide (e.1 = l.1)) then d.map (fun e => if e.1 = l.1 then (e.1, v) else e)
    else d ++ [(l.1, v)]) []

/-- The analytic curves (plots.py:117-144): their points, the relative posterior mass and the
posterior mass remaining.  `none` is a nan of `logl_given_logx`. -/
def analyticCurves (areas : List (String × List ℝ)) (logxMin : ℝ) (npoints : Nat) (loglGivenLogx : ℝ → Cell)
    (massNorm cumNorm : Option String) : Py (List ℝ × List ℝ × List ℝ) := do
  let pts := (linspace logxMin 0 npoints).filterMap (fun x => (loglGivenLogx x).map (fun l => (x, l)))   -- 119-123
  let w ← relPosteriorMass (pts.map Prod.fst) (pts.map Prod.snd)      -- 124
  let a ← averageByKey areas massNorm                                 -- 130
  let w := w.map (· * a)
  let c := cumsum w                                                   -- 135
  let c ← pyMap (fun y => npDiv y (trapz c (pts.map Prod.fst))) c     -- 136
  let b ← averageByKey areas cumNorm                                  -- 142
  pure (pts.map Prod.fst, w, c.map (· * b))

/-- What `plot_run_nlive` draws. -/
structure NliveFigure where
  lines : List (String × List RunLine)
  logxMin : ℝ
  analytic : Option (List ℝ × List ℝ × List ℝ)

/-- The analytic curves if `logl_given_logx` is given (plots.py:117). -/
def optionalCurves (areas : List (String × List ℝ)) (logxMin : ℝ) (npoints : Nat) (loglGivenLogx : Option (ℝ → Cell))
    (massNorm cumNorm : Option String) : Py (Option (List ℝ × List ℝ × List ℝ)) :=
  match loglGivenLogx with
  | none => .ok none
  | some f => (analyticCurves areas logxMin npoints f massNorm cumNorm).map some

/-- `plot_run_nlive` (plots.py:21-154): what is drawn, and the caller's dictionary afterwards. -/
def plotRunNlive (R : Rng σ ℝ) (names : List String) (dict : RunDict) (logxGivenLogl : Option (List ℝ → List ℝ))
    (loglGivenLogx : Option (ℝ → Cell)) (logxMin : Option ℝ) (npoints : Nat) (massNorm cumNorm : Option String) :
    M σ (NliveFigure × RunDict) := do
  M.assert (names.all (fun n => decide (n ∈ dict.map Prod.fst)) && (dict.map Prod.fst).all (fun n => decide (n ∈ names)))  -- 70
  let p ← plotMethods R logxGivenLogl names dict
  let lo ← M.lift ((logxMin.or (amin (p.1.flatMap (fun l => l.2.map RunLine.last)))).elim (.error .value) .ok)   -- 115-116
  let curves ← M.lift (optionalCurves (integralsDict p.1) lo npoints loglGivenLogx massNorm cumNorm)
  pure (⟨p.1, lo, curves⟩, p.2)

/-! ### plot_bs_dists, bs_param_dists -/

/-- A quantity to plot: a function of the array `theta`, whose values may be nan. -/
abbrev FTheta := List (List ℝ) → Py (List Cell)

/-- The bootstrap samples (plots.py:649-654). -/
def bsSamps (A : Argsort ℝ) (R : Rng σ ℝ) (r : Run ℝ) (settings : Option Settings) (threads : List (Run ℝ)) :
    Nat → M σ (List (List (List ℝ) × List ℝ))
  | 0 => pure []
  | n + 1 => do
    let temp ← bootstrapResampleRun A R r settings (some threads) false .keep
    let w ← getWRel R temp.1 false
    let rest ← bsSamps A R r settings threads n
    pure ((temp.1.theta, w) :: rest)

/-- `ftheta(theta)` as assigned to the part of a row: `ValueError` if its length is different. -/
def fthetaValues (f : FTheta) (theta : List (List ℝ)) : Py (List Cell) := do
  let v ← f theta
  if v.length ≠ theta.length then .error .value else pure v

/-- One row of `samples_array` (plots.py:660-663). -/
def bsRow (f : FTheta) (len : Nat) (bs : List (List ℝ) × List ℝ) : Py (List Cell) := do
  let v ← fthetaValues f bs.1
  if bs.2.length ≠ bs.1.length then .error .value
  else pure (packRow len v (bs.2.map some))

/-- `samples_array` (plots.py:658-663): `ValueError` if there are no samples. -/
def bsArray (bs : List (List (List ℝ) × List ℝ)) (f : FTheta) : Py (List (List Cell)) :=
  match amax (bs.map (fun b => b.1.length)) with
  | none => .error .value
  | some m => pyMap (bsRow f (2 * m)) bs

/-- The mean of a function (plots.py:686-688, 547-549): nan if one of its values is nan. -/
def fthetaMean (w : List ℝ) (theta : List (List ℝ)) (f : FTheta) : Py Cell := do
  let v ← fthetaValues f theta
  match noNan v with
  | none => pure none
  | some v => do
    let m ← dot w v
    pure (some m)

/-- The means of the functions. -/
def fthetaMeans (R : Rng σ ℝ) (r : Run ℝ) (fs : List FTheta) : M σ (List Cell) := do
  let w ← getWRel R r false
  let w ← M.lift (pyMap (fun x => npDiv x w.sum) w)
  M.lift (pyMap (fthetaMean w r.theta) fs)

/-- `plot_bs_dists` (plots.py:581-696): for each function the array whose rows are the
replications, and the means that are drawn (`mean_color` is given).  Without functions there is no colorbar to
return (`UnboundLocalError`). -/
def plotBsDists (A : Argsort ℝ) (R : Rng σ ℝ) (r : Run ℝ) (settings : Option Settings) (fs : List FTheta)
    (nAxes nLims nSim : Nat) (mean : Bool) : M σ (List (List (List Cell)) × List Cell) := do
  M.assert (fs.length = nAxes)                                        -- 643
  M.assert (fs.length = nLims)                                        -- 645
  let threads ← getRunThreads r                                       -- 647
  let bs ← bsSamps A R r settings threads nSim                        -- 649-654
  let arrays ← M.lift (pyMap (bsArray bs) fs)
  let means ← (if mean then fthetaMeans R r fs else pure [])          -- 685-688
  if fs.isEmpty then M.raise .name                                    -- 696
  else pure (arrays, means)

/-- The loop of `bs_param_dists` (plots.py:313-326) over the runs with their positions: there are five
colormaps. -/
def bsDistsLoop (A : Argsort ℝ) (R : Rng σ ℝ) (fs : List FTheta) (nLims nSim : Nat) :
    List ((Run ℝ × Option Settings) × Nat) → M σ (List (List (List (List Cell)) × List Cell))
  | [] => pure []
  | (r, n) :: rs => do
    let y ← (if 5 ≤ n then M.raise .index
      else plotBsDists A R r.1 r.2 fs fs.length nLims nSim true)
    let ys ← bsDistsLoop A R fs nLims nSim rs
    pure (y :: ys)

/-- `bs_param_dists` (plots.py:235-346): the data drawn for each run, in the order of drawing.
`nLabels` and `nLims` are the lengths of `labels` and `ftheta_lims`. -/
def bsParamDists (A : Argsort ℝ) (R : Rng σ ℝ) (runs : List (Run ℝ × Option Settings)) (fs : List FTheta)
    (nLabels nLims nSim : Nat) (seed : Seed) : M σ (List (List (List (List Cell)) × List Cell)) := do
  let state ← M.getState                                              -- 298
  seedAlways R seed                                                   -- 299
  M.assert (nLabels = fs.length)                                      -- 302
  if runs.length + fs.length = 0 then M.raise .value                  -- 305, no columns
  else if runs.length + fs.length = 1 then M.raise .type              -- 319 or 336, one pair of axes is no array
  else do
    let data ← bsDistsLoop A R fs nLims nSim runs.zipIdx.reverse      -- 313
    M.setState state                                                  -- 345
    pure data

/-! ### param_logx_diagram -/

/-- One row of `samples` (plots.py:469-475): simulated logx values in ascending order, alternating with
the relative posterior mass. -/
def logxRow (R : Rng σ ℝ) (r : Run ℝ) : M σ (List ℝ × List ℝ) := do
  let logx ← getLogx R r.nlive true
  let x := logx.reverse
  if x.length ≠ r.logl.length then M.raise .value
  else M.lift (do
    let w ← relWeights (List.zipWith (· + ·) x r.logl.reverse)
    let w ← pyMap (fun y => npDiv y (trapz w x)) w
    pure (x, w))

/-- The rows for `n_simulate` simulations (plots.py:467-475). -/
def logxRows (R : Rng σ ℝ) (r : Run ℝ) : Nat → M σ (List (List ℝ × List ℝ))
  | 0 => pure []
  | n + 1 => do
    let y ← logxRow R r
    let ys ← logxRows R r n
    pure (y :: ys)

/-- The options of `param_logx_diagram`. -/
structure LogxOptions where
  fs : List FTheta
  nLabels : Nat
  nLims : Nat
  threadsToPlot : Option (List Int)
  plotMeans : Bool
  nSim : Nat
  seed : Seed
  logxMin : Option ℝ
  nColors : Nat
  nMaps : Nat
  thin : ℝ

/-- What `param_logx_diagram` draws for one run. -/
structure LogxPlot where
  rows : List (List Cell)
  logxMin : ℝ
  scatterX : List ℝ
  scatter : List (List Cell)
  threads : List (List (List ℝ × List Cell))
  posterior : List (List (List Cell)) × List Cell
  means : List Cell

/-- The samples of the scatter plot (plots.py:508-519): their indexes, and the variable `state`. -/
def thinned (R : Rng σ ℝ) (o : LogxOptions) (n : Nat) (state : σ) : M σ (List Nat × σ) :=
  if o.thin = 1 then pure (List.range n, state)
  else do
    M.assert (decide (0 < o.thin ∧ o.thin ≤ 1))                       -- 511
    let st ← M.getState                                               -- 514
    seedAlways R o.seed                                               -- 515
    let us ← M.draw (R.uniform n)                                     -- 516
    M.setState st                                                     -- 517
    pure (whereIdx (fun u => decide (u ≤ o.thin)) us, st)

/-- The line of one thread (plots.py:526-530); there are three line styles. -/
def threadLine (r : Run ℝ) (logx : List ℝ) (n : Nat) (f : FTheta) (label : Int) : Py (List ℝ × List Cell) := do
  let inds := whereIdx (fun l => decide (l = label)) (r.labels.getD [])
  let v ← f (gather r.theta inds)
  if 3 ≤ n then .error .index
  else if v.length ≠ (gather logx inds).length then .error .value
  else pure (gather logx inds, v)

/-- The scatter plot of one function, and the lines of the threads (plots.py:520-530). -/
def scatterOf (o : LogxOptions) (r : Run ℝ) (logx : List ℝ) (inds : List Nat) (n : Nat) (f : FTheta) :
    Py (List Cell × List (List ℝ × List Cell)) := do
  let v ← f (gather r.theta inds)
  if o.nColors ≤ n then .error .index
  else if v.length ≠ (gather logx inds).length then .error .value
  else do
    let ls ← pyMap (threadLine r logx n f) (o.threadsToPlot.getD [])
    pure (v, ls)

/-- The loop body of `param_logx_diagram` for run number `n` (plots.py:462-552); the variables
`logx_min` and `state` are those of the function. -/
def logxPlotRun (A : Argsort ℝ) (R : Rng σ ℝ) (o : LogxOptions) (r : Run ℝ) (settings : Option Settings) (n : Nat)
    (logxMin : Option ℝ) (state : σ) : M σ (LogxPlot × σ) := do
  let rows ← logxRows R r o.nSim                                      -- 467-475
  let lo ← M.lift ((logxMin.or (amin (rows.filterMap (fun p => p.1.head?)))).elim (.error .value) .ok)   -- 476-477
  if o.nMaps ≤ n then M.raise .index                                  -- 489
  else do
    let logx ← getLogx R r.nlive false                                -- 506
    let th ← thinned R o logx.length state                            -- 508-519
    let sc ← M.lift (pyMap (scatterOf o r logx th.1 n) o.fs)
    if (if o.plotMeans then o.nColors + 1 else o.nColors) ≤ n then M.raise .index      -- 542
    else do
      let post ← plotBsDists A R r settings o.fs o.fs.length o.nLims o.nSim o.plotMeans    -- 536-543
      let means ← (if o.plotMeans then fthetaMeans R r o.fs else pure [])                  -- 546-549
      pure (⟨rows.map (fun p => packRow (2 * r.nlive.length) (p.1.map some) (p.2.map some)), lo, gather logx th.1,
        sc.map Prod.fst, sc.map Prod.snd, post, means⟩, th.2)

/-- The loop of `param_logx_diagram`: `logx_min` is set by the first run drawn. -/
def logxLoop (A : Argsort ℝ) (R : Rng σ ℝ) (o : LogxOptions) :
    List ((Run ℝ × Option Settings) × Nat) → Option ℝ → σ → M σ (List LogxPlot × σ)
  | [], _, state => pure ([], state)
  | (r, n) :: rs, lo, state => do
    let y ← logxPlotRun A R o r.1 r.2 n lo state
    let ys ← logxLoop A R o rs (some y.1.logxMin) y.2
    pure (y.1 :: ys.1, ys.2)

/-- `param_logx_diagram` (plots.py:349-574): what is drawn for each run, in the order of drawing.
Without runs the axes to be formatted are not defined (`UnboundLocalError`). -/
def paramLogxDiagram (A : Argsort ℝ) (R : Rng σ ℝ) (o : LogxOptions) (runs : List (Run ℝ × Option Settings)) :
    M σ (List LogxPlot) := do
  let state ← M.getState                                              -- 434
  seedAlways R o.seed                                                 -- 435
  M.assert (o.fs.length = o.nLabels)                                  -- 442
  M.assert (o.fs.length = o.nLims)                                    -- 443
  if o.fs.isEmpty then M.raise .index                                 -- 452, the axes are no matrix
  else if runs.isEmpty then M.raise .name                             -- 554
  else do
    let y ← logxLoop A R o runs.zipIdx.reverse o.logxMin state        -- 462
    M.setState y.2                                                    -- 573
    pure y.1

end
end Nestcheck
