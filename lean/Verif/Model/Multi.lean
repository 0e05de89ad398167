import Verif.Model.Pandas
import Verif.Model.Diagnostics

/-
`summary_df_from_multi` (pandas_functions.py:66-120) for DataFrames with any levels of the index and any
`inds_to_keep`.

The values of the levels are strings.  A frame has the names of the levels of its index, its number of columns
and its rows, each with one value per level.  No column has the name of a level (pandas would then raise
`ValueError`), and frames without rows are outside the model.
-/

namespace Nestcheck
noncomputable section

/-- A DataFrame with a MultiIndex. -/
structure MultiFrame where
  levels : List String
  ncol : Nat
  rows : List (List String × List Cell)

/-- The order in which `groupby` sorts the groups: by the first level, then by the second, ... -/
def keyLE (a b : List String) : Prop := a.map String.toList ≤ b.map String.toList

/-- `index._get_level_number(name)`: `KeyError` if there is no such level, `ValueError` if there are several. -/
def levelNumber (levels : List String) (name : String) : Py Nat :=
  if levels.count name = 0 then .error .key
  else if 1 < levels.count name then .error .value
  else .ok (levels.idxOf name)

/-- The numbers of several levels. -/
def levelNumbers (levels : List String) : List String → Py (List Nat)
  | [] => .ok []
  | n :: ns => do
    let i ← levelNumber levels n
    let rest ← levelNumbers levels ns
    pure (i :: rest)

/-- The values of a key at some places. -/
def keyAt (key : List String) (places : List Nat) : List String := places.map (fun i => key.getD i "")

open Classical in
/-- The groups of a `groupby`: the distinct values at the levels, in ascending order. -/
def multiKeys (f : MultiFrame) (places : List Nat) : List (List String) :=
  ((f.rows.map (fun r => keyAt r.1 places)).dedup).insertionSort keyLE

/-- The rows of a group. -/
def multiGroup (f : MultiFrame) (places : List Nat) (g : List String) : Arr2 :=
  ⟨f.ncol, (f.rows.filter (fun r => keyAt r.1 places = g)).map Prod.snd⟩

/-- The summaries of the groups, one after the other: the levels of `summary_df` follow those of the group. -/
def multiSummaries (f : MultiFrame) (places : List Nat) (tv : Option (List ℝ)) (incRmse : Bool) :
    List (List String) → Py (List (List String × List Cell))
  | [] => .ok []
  | g :: gs => do
    let s ← summaryDf (multiGroup f places g) tv false incRmse
    let rest ← multiSummaries f places tv incRmse gs
    pure (s.map (fun r => (g ++ [r.1.1.name, r.1.2.name], r.2)) ++ rest)

/-- `f.groupby(inds).apply(summary_df, include_true_values=False, ...)` (pandas_functions.py:89-90, 101-102).
`groupby` with an empty list raises `ValueError`; names which are given twice are outside the model. -/
def groupApply (f : MultiFrame) (inds : List String) (tv : Option (List ℝ)) (incRmse : Bool) : Py MultiFrame := do
  let places ← levelNumbers f.levels inds
  if inds = [] then .error .value
  if ¬ inds.Nodup ∨ f.rows = [] then .error .undefined
  let rows ← multiSummaries f places tv incRmse (multiKeys f places)
  pure ⟨inds ++ ["calculation type", "result type"], f.ncol, rows⟩

/-- `'calculation type temp'` for `'calculation type'` (pandas_functions.py:95-100). -/
def renameLevel (n : String) : String := if n ≠ "calculation type" then n else "calculation type temp"

/-- `index.droplevel(names)` for one key. -/
def dropLevels (levels names key : List String) : List String :=
  ((levels.zip key).filter (fun p => p.1 ∉ names)).map Prod.snd

/-- The levels 'calculation type temp' and 'calculation type' are joined (pandas_functions.py:106-114). -/
def joinTypes (df : MultiFrame) : Py MultiFrame := do
  let i ← levelNumber df.levels "calculation type temp"               -- 106
  let j ← levelNumber df.levels "calculation type"                    -- 107
  let order := df.levels.erase "calculation type temp"                -- 108-109
  let levels := df.levels.filter (fun n => n ∉ ["calculation type", "calculation type temp"]) ++ ["calculation type"]
  let rows := df.rows.map (fun r =>
    (dropLevels df.levels ["calculation type", "calculation type temp"] r.1 ++ [r.1.getD i "" ++ " " ++ r.1.getD j ""], r.2))
  let places ← levelNumbers levels order                              -- 114
  pure ⟨order, df.ncol, rows.map (fun r => (keyAt r.1 places, r.2))⟩

/-- `df.loc[key, :] = row`: a row with this key is replaced, otherwise one is added at the end. -/
def setRow (rows : List (List String × List Cell)) (key : List String) (row : List Cell) : List (List String × List Cell) :=
  if rows.any (fun r => r.1 = key) then rows.map (fun r => if r.1 = key then (key, row) else r) else rows ++ [(key, row)]

/-- `summary_df_from_multi` (pandas_functions.py:66-120); also the frame which was passed, as it is afterwards. -/
def summaryDfMulti (multi : MultiFrame) (inds : Option (List String)) (tv : Option (List ℝ)) (incTrue incRmse : Bool) :
    Py MultiFrame × MultiFrame :=
  let inds := inds.getD multi.levels.dropLast                         -- 86-87
  let df : Py MultiFrame × MultiFrame :=
    if "calculation type" ∉ inds then (groupApply multi inds tv incRmse, multi)   -- 88-90
    else
      let inds := inds.map renameLevel                                -- 95-96
      let temp := multi                                               -- 97
      let temp := { temp with levels := temp.levels.map renameLevel } -- 98-100
      (groupApply temp inds tv incRmse >>= joinTypes, multi)          -- 101-114
  (do
    let df ← df.1
    if incTrue then
      match tv with
      | some v =>
        let key := df.levels.dropLast.map (fun n => if n = "calculation type" then "true values" else "") ++ ["value"]
        pure { df with rows := setRow df.rows key (v.map some) }      -- 117-119
      | none => .error .assertion                                     -- 116
    else pure df, df.2)

end
end Nestcheck
