import Mathlib.Algebra.Order.Floor.Ring
import Verif.Model.Pandas
import Verif.Model.LatexName

/-
`paper_format_efficiency_gain_df` (nestcheck/pandas_functions.py:309-349), and the order of the
rows of the table it works on.

Column names are assumed to be distinct, and the table to come from `efficiency_gain_df`.
-/

namespace Nestcheck
noncomputable section

/-- A row of the table of `efficiency_gain_df` with its index: calculation type, method, result
type. -/
abbrev GainRow := (Calc × String × Res) × List Cell

/-- The position of an index in the order of the categories (pandas_functions.py:289-297): by
calculation type, then by method in the order of the methods (after ''), then by result type. -/
def gainKey (names : List String) (k : Calc × String × Res) : Nat :=
  (k.1.order * (names.length + 1) + ("" :: names).idxOf k.2.1) * 2 + k.2.2.order

/-- `results.sort_index()` (pandas_functions.py:305). -/
def sortedGain (eff : List (String × Table) × Table) : List GainRow :=
  (eff.1.flatMap (fun p => p.2.map (fun x => ((x.1.1, p.1, x.1.2), x.2))) ++
    eff.2.map (fun x => ((x.1.1, "", x.1.2), x.2))).insertionSort
      (fun a b => gainKey (eff.1.map Prod.fst) a.1 ≤ gainKey (eff.1.map Prod.fst) b.1)

/-- `np.rint`: the nearest integer, of two equally near ones the even one. -/
def rint (x : ℝ) : ℤ :=
  if x - ⌊x⌋ < 1 / 2 then ⌊x⌋
  else if 1 / 2 < x - ⌊x⌋ then ⌊x⌋ + 1
  else if Even ⌊x⌋ then ⌊x⌋ else ⌊x⌋ + 1

/-- The loop over `means[col].values` (pandas_functions.py:331-333); `int(nan)` raises
`ValueError`. -/
def countCells (j : Nat) : List (List Cell) → Py (List Cell)
  | [] => .ok []
  | r :: rs =>
    match r.getD j none with
    | none => .error .value
    | some x => do
      let vs ← countCells j rs
      pure (some ((rint x : ℤ) : ℝ) :: none :: vs)

/-- The replacement of one column (pandas_functions.py:329-337); a column which is not there is
passed over.  A new column of the wrong length raises `ValueError`. -/
def showCounts (cols : List String) (means : List (List Cell)) (col : String) (rows : List GainRow) :
    Py (List GainRow) :=
  if col ∈ cols then do
    let vals ← countCells (cols.idxOf col) means
    let vals := vals ++ List.replicate (rows.length - vals.length) none
    if vals.length = rows.length then
      pure (List.zipWith (fun r v => (r.1, r.2.set (cols.idxOf col) v)) rows vals)
    else .error .value
  else .ok rows

/-- `str.replace(key, value)` for a nonempty key: the occurrences from the left which do not
overlap.  `skip` characters still belong to the last occurrence.  (In versions of pandas which
take the key for a regular expression, the dots of the second key of `row_name_map` match any
character.) -/
def replaceFrom (key value : List Char) : Nat → List Char → List Char
  | _, [] => []
  | k + 1, _ :: cs => replaceFrom key value k cs
  | 0, c :: cs =>
    if key.isPrefixOf (c :: cs) then value ++ replaceFrom key value (key.length - 1) cs
    else c :: replaceFrom key value 0 cs

def replaceAll (key value s : List Char) : List Char := replaceFrom key value 0 s

def Calc.chars : Calc → List Char
  | .std => chars!"std"
  | .stdGain => chars!"std efficiency gain"
  | c => c.name.toList

/-- The name of a row (pandas_functions.py:338-346). -/
def paperName (c : Calc) (m : List Char) : List Char :=
  replaceAll chars!"std" chars!"St.Dev." <|
  replaceAll chars!"dynamic " [] <|
  replaceAll chars!"St.Dev. efficiency gain" chars!"Efficiency gain" <|
  replaceAll chars!"std efficiency gain" chars!"Efficiency gain" <|
  c.chars ++ ' ' :: m

/-- `paper_format_efficiency_gain_df` (pandas_functions.py:309-349).  If there is no row with an
efficiency gain (one method only), versions of pandas differ; the model raises `KeyError`. -/
def paperDf (cols : List String) (eff : List (String × Table) × Table) :
    Py (List ((List Char × Res) × List Cell)) := do
  let all := sortedGain eff
  let rows := all.filter (fun r => r.1.1 = .std ∨ r.1.1 = .stdGain)                  -- 323-324
  if (all.any (fun r => r.1.1 = .std) && all.any (fun r => r.1.1 = .stdGain)) = false then .error .key
  let means := (all.filter (fun r => r.1.1 = .mean ∧ r.1.2.2 = .value)).map (·.2)    -- 326-327
  let rows ← showCounts cols means "samples" rows
  let rows ← showCounts cols means "likelihood calls" rows
  pure (rows.map (fun r => ((paperName r.1.1 r.1.2.1.toList, r.1.2.2), r.2)))        -- 342-348

end
end Nestcheck
