import Verif.Model.Plots

/-
`kde_plot_df` (nestcheck/plots.py:157-232), in exact real arithmetic: which line is drawn in
which subplot.

`scipy.stats.gaussian_kde` is modelled by what its documentation and source say for a one
dimensional data set without weights: Scott's bandwidth, and the covariance with `bias=False`.
The cells of the table hold lists of finite numbers.  Appearance (sizes, ticks) is not
modelled; the keyword arguments are in Model/PlotsKwargs.
-/

namespace Nestcheck
noncomputable section

/-- A data frame: the columns with their names; each a list of cells with the names of the rows. -/
abbrev SampleFrame := List (String × List (String × List ℝ))

/-- The function `scipy.stats.gaussian_kde(samps)`.  `ValueError` for fewer than two samples;
`undefined` stands for numpy's `LinAlgError`, which is raised if the covariance is zero. -/
def scipyKde (samps : List ℝ) : Py (ℝ → ℝ) :=
  if samps.length ≤ 1 then .error .value
  else
    let n : ℝ := samps.length
    let mean := samps.sum / n
    let cov := (samps.map (fun s => (s - mean) ^ 2)).sum / (n - 1) * (n ^ (-1 / 5 : ℝ)) ^ 2
    if cov = 0 then .error .undefined
    else .ok (fun x => (samps.map (fun s => Real.exp (-((x - s) * cov⁻¹ * (x - s) / 2)))).sum /
      (Real.sqrt (2 * Real.pi * cov) * n))

/-- `np.min` of a cell, which raises `ValueError` if it is empty. -/
def cellMin (xs : List ℝ) : Py ℝ := match amin xs with
  | none => .error .value
  | some x => .ok x

/-- `np.max` of a cell. -/
def cellMax (xs : List ℝ) : Py ℝ := match amax xs with
  | none => .error .value
  | some x => .ok x

/-- `support` (plots.py:207-210).  For a column without rows its values are nan, and no line is
drawn; it is then empty here. -/
def kdeSupport (cells : List (List ℝ)) : Py (List ℝ) := do
  let mins ← pyMap cellMin cells
  let maxs ← pyMap cellMax cells
  match amin mins, amax maxs with
  | some lo, some hi => pure (linspace (lo - 0.1 * (hi - lo)) (hi + 0.1 * (hi - lo)) 200)
  | _, _ => pure []

/-- One line: its label, and the points. -/
structure KdeLine where
  label : String
  xs : List ℝ
  ys : List ℝ

/-- The loop over the rows (plots.py:213-218). -/
def kdeLines (normalize : Bool) (support : List ℝ) : List (String × List ℝ) → Py (List KdeLine)
  | [] => .ok []
  | (name, samps) :: rows => do
    let f ← scipyKde samps
    let pdf := support.map f
    let pdf ← if normalize then pure pdf else do
      let m ← cellMax pdf
      pyMap (fun y => npDiv y m) pdf
    let more ← kdeLines normalize support rows
    pure (⟨name, support, pdf⟩ :: more)

/-- `axes[nax]` or `axes[nax // ncols, nax % ncols]` (plots.py:203-206) for the result of
`plt.subplots(nrows, ncols)`, which is a single object (not an array) if there is one subplot, and
a one dimensional array if one of the numbers is 1. -/
def kdeAxes (nrows ncols nax : Nat) : Py (Nat × Nat) :=
  if nrows = 1 then
    if ncols = 1 then .error .type
    else if nax < ncols then .ok (0, nax) else .error .index
  else if ncols = 1 then .error .index
  else if nax / ncols < nrows then .ok (nax / ncols, nax % ncols) else .error .index

structure KdePanel where
  /-- row and column of the subplot -/
  pos : Nat × Nat
  title : String
  lines : List KdeLine
  /-- the limits of the x axis, if they are set -/
  xlim : Option (ℝ × ℝ)

/-- The loop over the columns (plots.py:202-229). -/
def kdePanels (nrows ncols : Nat) (normalize : Bool) (xlims : Option (List (String × ℝ × ℝ))) :
    Nat → SampleFrame → Py (List KdePanel)
  | _, [] => .ok []
  | nax, (col, rows) :: df => do
    let pos ← kdeAxes nrows ncols nax
    let support ← kdeSupport (rows.map Prod.snd)
    let lines ← kdeLines normalize support rows
    let more ← kdePanels nrows ncols normalize xlims (nax + 1) df
    pure (⟨pos, col, lines, xlims.bind (·.lookup col)⟩ :: more)

/-- `kde_plot_df`: the subplots, and the labels of the legend, which are those of the last column.
The default of `ncols` is computed even if it is given.  `plt.subplots` raises `ValueError` if
there are no subplots; without columns `handles` is not
defined. -/
def kdePlotDf (df : SampleFrame) (xlims : Option (List (String × ℝ × ℝ))) (nrows : Nat) (ncols : Option Nat)
    (normalize legend : Bool) : Py (List KdePanel × Option (List String)) := do
  if nrows = 0 then .error .zeroDivision                                             -- 195
  let ncols := ncols.getD ⌈(df.length : ℝ) / (nrows : ℝ)⌉₊
  if ncols = 0 then .error .value                                                    -- 201
  let panels ← kdePanels nrows ncols normalize xlims 0 df
  if legend then                                                                     -- 230
    match panels.getLast? with
    | none => .error .name
    | some p => pure (panels, some (p.lines.map (·.label)))
  else pure (panels, none)

end
end Nestcheck
