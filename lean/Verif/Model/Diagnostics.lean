import Verif.Model.Pandas
import Verif.Model.Parallel

/-
nestcheck/diagnostics_tables.py and `summary_df_from_multi` (pandas_functions.py:66-120),
in exact real arithmetic.

A table of arrays (`bs_values_df`, `thread_values_df`) is a list of named columns; the
index is 0, 1, ...  Column names that are not distinct, or are 'calculation type', are
modelled for `estimator_values_df`, `bs_values_df` and `thread_values_df` only
(`undefined` elsewhere).  The runs have no `settings` here: `run_bootstrap_values` is
called with ninit_sep=False and does not use them.  Caching of results is in Model/Cache,
unexpected keyword arguments are in Model/Kwargs.
-/

namespace Nestcheck
noncomputable section
variable {σ : Type}

/-- Named columns, the rows being numbered from 0. -/
structure DF (β : Type) where
  cols : List (String × List β)

def DF.names {β : Type} (df : DF β) : List String := df.cols.map Prod.fst

/-- `df[name] = vals`: a new column at the end, or new values for an old one. -/
def DF.setCol {β : Type} (df : DF β) (name : String) (vals : List β) : DF β :=
  if name ∈ df.names then ⟨df.cols.map (fun c => if c.1 = name then (name, vals) else c)⟩
  else ⟨df.cols ++ [(name, vals)]⟩

/-- The first cell of a column. -/
def firstCell {β : Type} (c : String × List β) : Py β :=
  match c.2 with
  | x :: _ => .ok x
  | [] => .error .key

/-- `df.loc[0]`: `KeyError` if there are no rows. -/
def DF.row0 {β : Type} (df : DF β) : Py (List β) :=
  match df.cols with
  | [] => .error .key
  | _ => pyMap firstCell df.cols

/-- `estimator_values_df` (diagnostics_tables.py:122-169): the rows of the table.  `np.stack`
of an empty list raises `ValueError`, as does a wrong number of names. -/
def estimatorValuesDf (R : Rng σ ℝ) (runs : List (Run ℝ)) (ests : List (EstFunc σ)) (names : List String)
    (parallel : Bool) (S : Schedule σ runs.length) : M σ Arr2 := do
  let vals ← parallelApply (fun r => runEstimators R r ests false) runs parallel true S     -- 163
  if vals = [] then M.raise .value                                                   -- 166
  else if names.length ≠ ests.length then M.raise .value                             -- 167
  else pure ⟨ests.length, vals⟩

/-- `arr[i, :]` -/
def arrRow {β : Type} (i : Nat) (a : List β) : Py β :=
  match a[i]? with
  | some x => .ok x
  | none => .error .index

/-- The loop `for i, name in enumerate(estimator_names)` (diagnostics_tables.py:280-281,
323-324). -/
def cellColumns {β : Type} (arrs : List (List β)) : Nat → List String → DF β → Py (DF β)
  | _, [], df => .ok df
  | i, name :: names, df => do
    let col ← pyMap (arrRow i) arrs
    cellColumns arrs (i + 1) names (df.setCol name col)

/-- The check of the number of values in the cells of the first row
(diagnostics_tables.py:283-287, 326-330). -/
def checkCells {β : Type} (df : DF (List β)) (n : Nat) : Py Unit := do
  let row ← df.row0
  if row.all (fun c => c.length = n) then .ok () else .error .assertion

/-- `bs_values_df` (diagnostics_tables.py:247-288). -/
def bsValuesDf (A : Argsort ℝ) (R : Rng σ ℝ) (runs : List (Run ℝ)) (ests : List (EstFunc σ)) (names : List String)
    (nSim : Nat) (parallel : Bool) (S : Schedule σ runs.length) : M σ (DF (List Cell)) := do
  M.assert (ests.length = names.length)                                              -- 272
  let arrs ← parallelApply (fun r => runBootstrapValues A R r none ests nSim false true none)
    runs parallel true S                                                             -- 275
  let df ← M.lift (cellColumns arrs 0 names ⟨[]⟩)
  M.lift (checkCells df nSim)
  pure df

/-- `run_list[0]['thread_min_max'].shape[0]` (diagnostics_tables.py:327). -/
def firstThreads : List (Run ℝ) → Py Nat
  | [] => .error .index
  | r :: _ =>
    match r.tmm with
    | some tmm => .ok tmm.length
    | none => .error .attribute

/-- `thread_values_df` (diagnostics_tables.py:291-331). -/
def threadValuesDf (R : Rng σ ℝ) (runs : List (Run ℝ)) (ests : List (EstFunc σ)) (names : List String)
    (parallel : Bool) (S : Schedule σ runs.length) : M σ (DF (List Cell)) := do
  M.assert (ests.length = names.length)                                              -- 315
  let arrs ← parallelApply (fun r => runThreadValues R r ests) runs parallel true S  -- 319
  let df ← M.lift (cellColumns arrs 0 names ⟨[]⟩)
  let _ ← M.lift df.row0
  let n ← M.lift (firstThreads runs)
  M.lift (checkCells df n)
  pure df

/-- Second index level of the table of `run_list_error_values`: the values have the number
of the run as a string, the bootstrap results as an integer, the comparisons a pair as a
string. -/
inductive RunLabel where
  | str (s : String)
  | int (n : Nat)
  deriving DecidableEq

/-- The table made by `run_list_error_values`: index (calculation type, run) and cells. -/
structure ErrTable where
  names : List String
  rows : List ((String × RunLabel) × List Cell)

/-- The values of the estimators as rows (diagnostics_tables.py:71-76). -/
def valueRows (a : Arr2) : List ((String × RunLabel) × List Cell) :=
  a.rows.mapIdx (fun i row => (("values", .str (toString i)), row))

/-- `bs_vals_df.applymap(lambda x: np.std(x, ddof=1))` as rows (diagnostics_tables.py:83-88). -/
def stdRows (nruns : Nat) (df : DF (List Cell)) : List ((String × RunLabel) × List Cell) :=
  (List.range nruns).map (fun i => (("bootstrap std", .int i),
    df.cols.map (fun c => (c.2[i]?).bind npStd)))

/-- `pairwise_dists_on_cols` (diagnostics_tables.py:334-357): the index is that of any of the
columns. -/
def pairwiseDistsOnCols (D : Distances (List Cell) Cell) (df : DF (List Cell)) (emd energy : Bool) :
    List ((String × String) × List Cell) :=
  let cols := df.cols.map (fun c => pairwiseDistances D c.2 emd energy)
  match cols with
  | [] => []
  | c :: _ => c.mapIdx (fun k row => (row.1, cols.map (fun d => (d[k]?).bind (fun x => x.2))))

/-- `t_d_df.xs('ks pvalue', level='calculation type', drop_level=False)`, renamed
(diagnostics_tables.py:98-102). -/
def threadPvalueRows (rows : List ((String × String) × List Cell)) : List ((String × RunLabel) × List Cell) :=
  (rows.filter (fun r => r.1.1 = "ks pvalue")).map (fun r => (("thread ks pvalue", .str r.1.2), r.2))

/-- The distances between bootstrap distributions, renamed (diagnostics_tables.py:107-117). -/
def bsDistRows (rows : List ((String × String) × List Cell)) : List ((String × RunLabel) × List Cell) :=
  (rows.filter (fun r => decide (r.1.1 ∈ ["ks distance", "earth mover distance", "energy distance"]))).map
    (fun r => (("bootstrap " ++ r.1.1, .str r.1.2), r.2))

/-- The part of the table made if `thread_pvalue` is true (diagnostics_tables.py:92-103).  With
fewer than two runs there is nothing to select (`KeyError`). -/
def threadPart (R : Rng σ ℝ) (D : Distances (List Cell) Cell) (runs : List (Run ℝ)) (ests : List (EstFunc σ))
    (names : List String) (parallel : Bool) (S : Schedule σ runs.length) :
    M σ (List ((String × RunLabel) × List Cell)) := do
  let tv ← threadValuesDf R runs ests names parallel S
  if runs.length < 2 then M.raise .key
  else pure (threadPvalueRows (pairwiseDistsOnCols D tv false false))

/-- The part made if `bs_stat_dist` is true (diagnostics_tables.py:106-118). -/
def distPart (D : Distances (List Cell) Cell) (nruns : Nat) (bs : DF (List Cell)) :
    Py (List ((String × RunLabel) × List Cell)) :=
  if nruns < 2 then .error .key
  else .ok (bsDistRows (pairwiseDistsOnCols D bs true true))

/-- `run_list_error_values` (diagnostics_tables.py:16-119) without caching. -/
def runListErrorValues (A : Argsort ℝ) (R : Rng σ ℝ) (D : Distances (List Cell) Cell) (runs : List (Run ℝ))
    (ests : List (EstFunc σ)) (names : List String) (nSim : Nat) (threadP bsDist parallel : Bool)
    (S1 S2 S3 : Schedule σ runs.length) : M σ ErrTable := do
  M.assert (ests.length = names.length)                                              -- 66
  if ¬ (names.Nodup ∧ "calculation type" ∉ names) then M.raise .undefined else do
  let vals ← estimatorValuesDf R runs ests names parallel S1                         -- 71
  let bs ← bsValuesDf A R runs ests names nSim parallel S2                           -- 81
  let tp ← (if threadP then threadPart R D runs ests names parallel S3 else pure [])
  let bd ← (if bsDist then M.lift (distPart D runs.length bs) else pure [])
  pure ⟨names, valueRows vals ++ stdRows runs.length bs ++ tp ++ bd⟩

/-! ### Summaries -/

/-- The order of strings used by `groupby` (by code points). -/
def strLE (a b : String) : Prop := a.toList ≤ b.toList

open Classical in
/-- The groups of a `groupby(['calculation type'])`: the distinct keys in ascending order. -/
def groupKeys (t : ErrTable) : List String :=
  ((t.rows.map (fun r => r.1.1)).dedup).insertionSort strLE

/-- The rows of a group. -/
def groupRows (t : ErrTable) (key : String) : Arr2 :=
  ⟨t.names.length, (t.rows.filter (fun r => r.1.1 = key)).map Prod.snd⟩

/-- Rows with index (calculation type, result type). -/
abbrev SumTable := List ((String × Res) × List Cell)

/-- The summaries of the groups, one after the other. -/
def groupSummaries (t : ErrTable) (tv : Option (List ℝ)) (incRmse : Bool) : List String → Py SumTable
  | [] => .ok []
  | k :: ks => do
    let s ← summaryDf (groupRows t k) tv false incRmse
    let rest ← groupSummaries t tv incRmse ks
    pure (s.map (fun r => ((k ++ " " ++ r.1.1.name, r.1.2), r.2)) ++ rest)

/-- `summary_df_from_multi` (pandas_functions.py:66-120) for an index with levels calculation
type and run. -/
def summaryDfFromMulti (t : ErrTable) (tv : Option (List ℝ)) (incTrue incRmse : Bool) : Py SumTable := do
  let s ← groupSummaries t tv incRmse (groupKeys t)
  if incTrue then
    match tv with
    | some v => pure (s ++ [(("true values", .value), v.map some)])
    | none => .error .assertion
  else pure s

/-- `df.loc[(c, res)]` -/
def SumTable.row (t : SumTable) (c : String) (res : Res) : Py (List Cell) :=
  match t.find? (fun x => x.1 = (c, res)) with
  | some x => .ok x.2
  | none => .error .key

/-- Is the cell a negative number? -/
def Cell.negative (c : Cell) : Prop := ∃ x, c = some x ∧ x < 0

instance (c : Cell) : Decidable c.negative := Classical.propDecidable _

/-- One element of `implementation_std` with cells that may be nan (error_analysis.py:314-331).
The draws from a normal distribution with a mean or scale that is nan are nan; those with a
negative scale raise an error (the random state they then leave behind is given by
`implementationElt` only). -/
def implementationCell (R : Rng σ ℝ) (N : NormalRng σ) (nsim : Nat) (v vu b bu : Cell) :
    M σ (Cell × Cell × Cell × Cell) :=
  match v, b, vu, bu with
  | some v', some b', some vu', some bu' => do
    let row ← implementationElt R N nsim (.num 0) v' vu' b' bu'
    pure (some row.std, row.stdU, row.frac, row.fracU)
  | some v', some b', _, _ =>
    if vu.negative ∨ bu.negative then M.raise .value
    else pure (some (impStd v' b'), none, nanDiv (impStd v' b') v', none)
  | _, _, _, _ =>
    if vu.negative ∨ bu.negative then M.raise .value else pure (none, none, none, none)

/-- `implementation_std` for all columns. -/
def implementationCells (R : Rng σ ℝ) (N : NormalRng σ) (nsim : Nat) :
    List (Cell × Cell × Cell × Cell) → M σ (List (Cell × Cell × Cell × Cell))
  | [] => pure []
  | (v, vu, b, bu) :: xs => do
    let y ← implementationCell R N nsim v vu b bu
    let ys ← implementationCells R N nsim xs
    pure (y :: ys)

/-- The rows added for the implementation errors, `stat` being 'std' or 'rmse'
(diagnostics_tables.py:193-216). -/
def implementationRows (R : Rng σ ℝ) (N : NormalRng σ) (nsim : Nat) (df : SumTable) (stat : String) :
    M σ SumTable := do
  let v ← M.lift (SumTable.row df ("values " ++ stat) .value)
  let vu ← M.lift (SumTable.row df ("values " ++ stat) .uncertainty)
  let b ← M.lift (SumTable.row df "bootstrap std mean" .value)
  let bu ← M.lift (SumTable.row df "bootstrap std mean" .uncertainty)
  let ys ← implementationCells R N nsim (v.zip (vu.zip (b.zip bu)))
  pure [(("implementation " ++ stat, .value), ys.map (fun y => y.1)),
        (("implementation " ++ stat, .uncertainty), ys.map (fun y => y.2.1)),
        (("implementation " ++ stat ++ " frac", .value), ys.map (fun y => y.2.2.1)),
        (("implementation " ++ stat ++ " frac", .uncertainty), ys.map (fun y => y.2.2.2))]

/-- `calcs_to_keep` (diagnostics_tables.py:218-224). -/
def calcsToKeep : List String :=
  ["true values", "values mean", "values std", "values rmse", "bootstrap std mean",
   "implementation std", "implementation std frac", "implementation rmse", "implementation rmse frac",
   "thread ks pvalue mean", "bootstrap ks distance mean", "bootstrap energy distance mean",
   "bootstrap earth mover distance mean"]

/-- The rows of the interesting calculation types, in order (diagnostics_tables.py:225-227). -/
def keepCalcs (df : SumTable) : SumTable :=
  calcsToKeep.flatMap (fun c => df.filter (fun r => r.1.1 = c))

/-- `error_values_summary` (diagnostics_tables.py:172-228). -/
def errorValuesSummary (R : Rng σ ℝ) (N : NormalRng σ) (nsim : Nat) (t : ErrTable) (tv : Option (List ℝ))
    (incTrue incRmse : Bool) : M σ SumTable := do
  let df ← M.lift (summaryDfFromMulti t tv incTrue incRmse)                          -- 191
  let imp ← implementationRows R N nsim df "std"                                     -- 193-202
  let rm ← (if df.any (fun r => r.1.1 = "values rmse") then implementationRows R N nsim (df ++ imp) "rmse"
    else pure [])                                                                    -- 205-216
  pure (keepCalcs (df ++ imp ++ rm))

/-- `run_list_error_summary` (diagnostics_tables.py:231-244). -/
def runListErrorSummary (A : Argsort ℝ) (R : Rng σ ℝ) (N : NormalRng σ) (nsim : Nat)
    (D : Distances (List Cell) Cell) (runs : List (Run ℝ)) (ests : List (EstFunc σ)) (names : List String)
    (nSim : Nat) (threadP bsDist parallel : Bool) (tv : Option (List ℝ)) (incTrue incRmse : Bool)
    (S1 S2 S3 : Schedule σ runs.length) : M σ SumTable := do
  let t ← runListErrorValues A R D runs ests names nSim threadP bsDist parallel S1 S2 S3
  errorValuesSummary R N nsim t tv incTrue incRmse

end
end Nestcheck
