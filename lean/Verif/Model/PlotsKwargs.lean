import Verif.Model.KdePlot

/-
Keyword arguments of the functions of nestcheck/plots.py as they are called by the user, with
the options in a dictionary.  Each pops the options it knows from the dictionary, gives the
missing ones their default and raises `TypeError` if something is left.  What is done with the
options is in Model/Plots and Model/KdePlot; options which only concern appearance, caching or the
number of processes are accepted and have no effect in the model.

The values which options may have are those of `PlotVal`.  A value of the wrong kind is a
`TypeError` where it is used first; this is simplified, as Python might accept it, or raise
another error later.
-/

namespace Nestcheck
noncomputable section
variable {σ : Type}

/-- Values of keyword arguments of the plotting functions. -/
inductive PlotVal where
  | none
  | bool (b : Bool)
  | nat (n : Nat)
  | real (x : ℝ)
  | str (s : String)
  | strs (l : List String)
  | labels (l : List Int)
  | limits (l : List (ℝ × ℝ))
  | sizes (l : List ℝ)
  | dict (d : List (String × PlotVal))
  | seed (s : Seed)
  | fthetas (l : List FTheta)
  | logxFun (f : List ℝ → List ℝ)
  | loglFun (f : ℝ → Cell)

/-- A dictionary of keyword arguments. -/
abbrev PlotKwargs := List (String × PlotVal)

/-- The value of an option, or its default: the first part of `kwargs.pop(key, default)`. -/
def PlotKwargs.get (kw : PlotKwargs) (key : String) (default : PlotVal) : PlotVal :=
  (kw.lookup key).getD default

/-- The dictionary without some options, which have been popped. -/
def PlotKwargs.without (kw : PlotKwargs) (keys : List String) : PlotKwargs :=
  kw.filter (fun p => decide (p.1 ∉ keys))

/-- `if kwargs: raise TypeError('Unexpected **kwargs: ...')` -/
def PlotKwargs.noneLeft (kw : PlotKwargs) : Py Unit :=
  match kw with
  | [] => .ok ()
  | _ => .error .type

open Classical in
/-- Truth values as used by `if`. -/
def PlotVal.truthy : PlotVal → Bool
  | .none => false
  | .bool b => b
  | .nat n => n ≠ 0
  | .real x => decide (x ≠ 0)
  | .str s => s ≠ ""
  | .strs l => !l.isEmpty
  | .labels l => !l.isEmpty
  | .limits l => !l.isEmpty
  | .sizes l => !l.isEmpty
  | .dict d => !d.isEmpty
  | .seed _ => true                                                   -- not used as a truth value
  | .fthetas l => !l.isEmpty
  | .logxFun _ => true
  | .loglFun _ => true

/-- A number of simulations, points, rows or columns. -/
def PlotVal.toNat : PlotVal → Py Nat
  | .nat n => .ok n
  | .bool b => .ok b.toNat
  | _ => .error .type

/-- A number. -/
def PlotVal.toReal : PlotVal → Py ℝ
  | .real x => .ok x
  | .nat n => .ok n
  | .bool b => .ok b.toNat
  | _ => .error .type

/-- A number or None. -/
def PlotVal.toRealOpt : PlotVal → Py (Option ℝ)
  | .none => .ok Option.none
  | v => (v.toReal).map some

/-- A key or None. -/
def PlotVal.toKey : PlotVal → Py (Option String)
  | .none => .ok Option.none
  | .str s => .ok (some s)
  | _ => .error .type

/-- A list of functions. -/
def PlotVal.toFthetas : PlotVal → Py (List FTheta)
  | .fthetas l => .ok l
  | _ => .error .type

/-- `len(x)` for the lists among the values. -/
def PlotVal.len : PlotVal → Py Nat
  | .strs l => .ok l.length
  | .labels l => .ok l.length
  | .limits l => .ok l.length
  | .sizes l => .ok l.length
  | .fthetas l => .ok l.length
  | .str s => .ok s.length
  | .dict d => .ok d.length
  | _ => .error .type

/-- A list of thread labels or None. -/
def PlotVal.toLabels : PlotVal → Py (Option (List Int))
  | .none => .ok Option.none
  | .labels l => .ok (some l)
  | _ => .error .type

/-- A random seed. -/
def PlotVal.toSeed : PlotVal → Py Seed
  | .seed s => .ok s
  | .nat n => .ok (.num n)
  | _ => .error .type

/-- A function from loglikelihoods to log volumes, or None. -/
def PlotVal.toLogxFun : PlotVal → Py (Option (List ℝ → List ℝ))
  | .none => .ok Option.none
  | .logxFun f => .ok (some f)
  | _ => .error .type

/-- A function from log volumes to loglikelihoods, or None. -/
def PlotVal.toLoglFun : PlotVal → Py (Option (ℝ → Cell))
  | .none => .ok Option.none
  | .loglFun f => .ok (some f)
  | _ => .error .type

/-- `plot_run_nlive` as called by the user (plots.py:60-69). -/
def plotRunNliveKw (R : Rng σ ℝ) (names : List String) (dict : RunDict) (kw : PlotKwargs) : M σ (NliveFigure × RunDict) := do
  let logxGivenLogl := kw.get "logx_given_logl" .none                 -- 60
  let kw := kw.without ["logx_given_logl"]
  let loglGivenLogx := kw.get "logl_given_logx" .none                 -- 61
  let kw := kw.without ["logl_given_logx"]
  let logxMin := kw.get "logx_min" .none                              -- 62
  let kw := kw.without ["logx_min", "ymax"]                           -- 63
  let npoints := kw.get "npoints" (.nat 100)                          -- 64
  let kw := kw.without ["npoints", "figsize"]                         -- 65
  let massNorm := kw.get "post_mass_norm" .none                       -- 66
  let kw := kw.without ["post_mass_norm"]
  let cumNorm := kw.get "cum_post_mass_norm" .none                    -- 67
  let kw := kw.without ["cum_post_mass_norm"]
  M.lift kw.noneLeft                                                  -- 68
  let logxGivenLogl ← M.lift logxGivenLogl.toLogxFun
  let loglGivenLogx ← M.lift loglGivenLogx.toLoglFun
  let logxMin ← M.lift logxMin.toRealOpt
  let npoints ← M.lift npoints.toNat
  let massNorm ← M.lift massNorm.toKey
  let cumNorm ← M.lift cumNorm.toKey
  plotRunNlive R names dict logxGivenLogl loglGivenLogx logxMin npoints massNorm cumNorm

/-- `kde_plot_df` as called by the user (plots.py:191-200).  The default of `ncols` is computed before
the check for unexpected options. -/
def kdePlotDfKw (df : SampleFrame) (xlims : Option (List (String × ℝ × ℝ))) (kw : PlotKwargs) : Py (List KdePanel × Option (List String)) := do
  let kw := kw.without ["figsize", "num_xticks"]                      -- 192-193
  let nrows ← (kw.get "nrows" (.nat 1)).toNat                         -- 194
  let kw := kw.without ["nrows"]
  if nrows = 0 then .error .zeroDivision                              -- 195
  let ncols := kw.lookup "ncols"                                      -- 195
  let kw := kw.without ["ncols"]
  let normalize := kw.get "normalize" (.bool true)                    -- 196
  let kw := kw.without ["normalize"]
  let legend := kw.get "legend" (.bool false)                         -- 197
  let kw := kw.without ["legend", "legend_kwargs"]                    -- 198
  kw.noneLeft                                                         -- 199
  let ncols ← (match ncols with
    | some v => (v.toNat).map some
    | none => .ok none : Py (Option Nat))
  kdePlotDf df xlims nrows ncols normalize.truthy legend.truthy

/-- `lambda theta: theta[:, j]` (plots.py:280-281) -/
def columnOf (j : Nat) : FTheta := pyMap (fun t => (t[j]?).elim (.error .index) (fun x => .ok (some x)))

/-- `plot_bs_dists` as called by the user (plots.py:629-642). -/
def plotBsDistsKw (A : Argsort ℝ) (R : Rng σ ℝ) (r : Run ℝ) (settings : Option Settings) (fs : List FTheta) (nAxes : Nat) (kw : PlotKwargs) :
    M σ (List (List (List Cell)) × List Cell) := do
  let lims := kw.get "ftheta_lims" (.limits (List.replicate fs.length (-1, 1)))   -- 629
  let kw := kw.without ["ftheta_lims"]
  let nSim := kw.get "n_simulate" (.nat 100)                          -- 630
  let kw := kw.without ["n_simulate", "colormap"]                     -- 631
  let meanColor := kw.get "mean_color" .none                          -- 632
  let kw := kw.without ["mean_color", "nx", "ny", "cache", "parallel", "rasterize_contours", "smooth", "flip_axes", "tqdm_kwargs"]   -- 633-640
  M.lift kw.noneLeft                                                  -- 641
  M.assert (fs.length = nAxes)                                        -- 643
  let nLims ← M.lift lims.len                                         -- 645
  let nSim ← M.lift nSim.toNat
  plotBsDists A R r settings fs nAxes nLims nSim (match meanColor with
    | .none => false
    | _ => true)                                                      -- 685

/-- `bs_param_dists` as called by the user (plots.py:280-296). -/
def bsParamDistsKw (A : Argsort ℝ) (R : Rng σ ℝ) (runs : List (Run ℝ × Option Settings)) (kw : PlotKwargs) :
    M σ (List (List (List (List Cell)) × List Cell)) := do
  let fs := kw.get "fthetas" (.fthetas [columnOf 0, columnOf 1])      -- 280
  let kw := kw.without ["fthetas"]
  let nf ← M.lift fs.len                                              -- 283
  let labels := kw.get "labels" (.strs ((List.range nf).map (fun i => "$\\theta_" ++ toString (i + 1) ++ "$")))   -- 282
  let kw := kw.without ["labels"]
  let lims := kw.get "ftheta_lims" (.limits (List.replicate nf (-1, 1)))   -- 284
  let kw := kw.without ["ftheta_lims"]
  let nSim := kw.get "n_simulate" (.nat 100)                          -- 285
  let kw := kw.without ["n_simulate"]
  let seed := kw.get "random_seed" (.nat 0)                           -- 286
  let kw := kw.without ["random_seed", "figsize", "nx", "ny", "cache", "parallel", "rasterize_contours", "tqdm_kwargs"]   -- 287-293
  M.lift kw.noneLeft                                                  -- 294
  let fs ← M.lift fs.toFthetas
  let nLabels ← M.lift labels.len
  let nLims ← M.lift lims.len
  let nSim ← M.lift nSim.toNat
  let seed ← M.lift seed.toSeed
  bsParamDists A R runs fs nLabels nLims nSim seed

/-- `param_logx_diagram` as called by the user (plots.py:406-430). -/
def paramLogxDiagramKw (A : Argsort ℝ) (R : Rng σ ℝ) (runs : List (Run ℝ × Option Settings)) (kw : PlotKwargs) : M σ (List LogxPlot) := do
  let fs := kw.get "fthetas" (.fthetas [columnOf 0, columnOf 1])      -- 406
  let kw := kw.without ["fthetas"]
  let nf ← M.lift fs.len                                              -- 409
  let labels := kw.get "labels" (.strs ((List.range nf).map (fun i => "$\\theta_" ++ toString (i + 1) ++ "$")))   -- 408
  let kw := kw.without ["labels"]
  let lims := kw.get "ftheta_lims" (.limits (List.replicate nf (-1, 1)))   -- 410
  let kw := kw.without ["ftheta_lims"]
  let threads := kw.get "threads_to_plot" (.labels [0])               -- 411
  let kw := kw.without ["threads_to_plot"]
  let plotMeans := kw.get "plot_means" (.bool true)                   -- 412
  let kw := kw.without ["plot_means"]
  let nSim := kw.get "n_simulate" (.nat 100)                          -- 413
  let kw := kw.without ["n_simulate"]
  let seed := kw.get "random_seed" (.nat 0)                           -- 414
  let kw := kw.without ["random_seed"]
  let logxMin := kw.get "logx_min" .none                              -- 415
  let kw := kw.without ["logx_min", "figsize"]                        -- 416
  let colors := kw.get "colors" (.strs ["red", "blue", "grey", "green", "orange"])   -- 417
  let kw := kw.without ["colors"]
  let maps := kw.get "colormaps" (.strs ["Reds_r", "Blues_r", "Greys_r", "Greens_r", "Oranges_r"])   -- 418
  let kw := kw.without ["colormaps", "cache", "parallel", "rasterize_contours", "point_size"]   -- 421-424
  let thin := kw.get "thin" (.nat 1)                                  -- 425
  let kw := kw.without ["thin", "npoints", "tqdm_kwargs"]             -- 426-427
  M.lift kw.noneLeft                                                  -- 428
  let fs ← M.lift fs.toFthetas
  let nLabels ← M.lift labels.len
  let nLims ← M.lift lims.len
  let threads ← M.lift threads.toLabels
  let nSim ← M.lift nSim.toNat
  let seed ← M.lift seed.toSeed
  let logxMin ← M.lift logxMin.toRealOpt
  let nColors ← M.lift colors.len
  let nMaps ← M.lift maps.len
  let thin ← M.lift thin.toReal
  paramLogxDiagram A R ⟨fs, nLabels, nLims, threads, plotMeans.truthy, nSim, seed, logxMin, nColors, nMaps, thin⟩ runs

end
end Nestcheck
