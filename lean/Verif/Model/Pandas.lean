import Mathlib.Data.List.Sort
import Verif.Model.ErrorAnalysis

/-
nestcheck/pandas_functions.py, in exact real arithmetic.

A cell is a real number, or `none` for a value that is not finite (nan or inf; no
operation below makes a finite number of such a value).  An array (or a DataFrame) is
its number of columns and its list of rows; column names matter by their number only.
A table made by `summary_df` is the list of its rows with their index.  Unexpected
keyword arguments are in Model/Kwargs, and the order of the rows of tables is modelled for
`summary_df` only (and for `paper_format_efficiency_gain_df`, see Model/Paper).
-/

namespace Nestcheck
noncomputable section

abbrev Cell := Option ℝ

structure Arr2 where
  ncol : Nat
  rows : List (List Cell)

/-- `df.T` -/
def Arr2.transpose (a : Arr2) : Arr2 := ⟨a.rows.length, fromColumns a.ncol a.rows⟩

/-- The columns. -/
def Arr2.columns (a : Arr2) : List (List Cell) := fromColumns a.ncol a.rows

/-- `Series.mean()`, which leaves out nan. -/
def pdMean (xs : List Cell) : Cell := npMean (xs.filter Option.isSome)

/-- `Series.std(ddof=1)`, which leaves out nan. -/
def pdStd (xs : List Cell) : Cell := npStd (xs.filter Option.isSome)

/-- The values of 'calculation type', in the order of the categories
(pandas_functions.py:175-178, 290-293). -/
inductive Calc where
  | trueValues | mean | std | rmse | stdGain | rmseGain
  deriving DecidableEq

def Calc.order : Calc → Nat
  | .trueValues => 0 | .mean => 1 | .std => 2 | .rmse => 3 | .stdGain => 4 | .rmseGain => 5

def Calc.name : Calc → String
  | .trueValues => "true values" | .mean => "mean" | .std => "std" | .rmse => "rmse"
  | .stdGain => "std efficiency gain" | .rmseGain => "rmse efficiency gain"

/-- The values of 'result type', in the order of the categories
(pandas_functions.py:183-184). -/
inductive Res where
  | value | uncertainty
  deriving DecidableEq

def Res.order : Res → Nat
  | .value => 0 | .uncertainty => 1

def Res.name : Res → String
  | .value => "value" | .uncertainty => "uncertainty"

abbrev Table := List ((Calc × Res) × List Cell)

/-- `df.sort_index()` (pandas_functions.py:195). -/
def sortTable (t : Table) : Table :=
  t.insertionSort (fun a b => 2 * a.1.1.order + a.1.2.order ≤ 2 * b.1.1.order + b.1.2.order)

/-- The mean squared error of a column and its uncertainty (pandas_functions.py:419-423). -/
def sqErrors (xs : List Cell) (t : ℝ) : List Cell := xs.map (Option.map (fun x => (x - t) ^ 2))

/-- One element of `rmse` (pandas_functions.py:424). -/
def rmseCell (xs : List Cell) (t : ℝ) : Cell := (npMean (sqErrors xs t)).map Real.sqrt

/-- One element of `rmse_unc` (pandas_functions.py:425). -/
def rmseUncCell (xs : List Cell) (t : ℝ) : Cell := do
  let rmse ← rmseCell xs t
  let inv ← nanDiv 1 rmse
  let s ← npStd (sqErrors xs t)
  pure (0.5 * inv * (s / Real.sqrt xs.length))

/-- `rmse_and_unc` (pandas_functions.py:393-426). -/
def rmseAndUnc (a : Arr2) (tv : List ℝ) : Py (List Cell × List Cell) :=
  if tv.length = a.ncol then
    .ok (List.zipWith rmseCell a.columns tv, List.zipWith rmseUncCell a.columns tv)
  else .error .assertion

/-- The check of the true values (pandas_functions.py:163-167). -/
def checkTrue (a : Arr2) (tv : Option (List ℝ)) : Py Unit :=
  match tv with
  | some t => if t.length = a.ncol then .ok () else .error .assertion
  | none => .ok ()

/-- The row of true values (pandas_functions.py:171-173). -/
def trueRow (tv : Option (List ℝ)) (incTrue : Bool) : Py Table :=
  if incTrue then
    match tv with
    | some t => .ok [((.trueValues, .value), t.map some)]
    | none => .error .assertion
  else .ok []

/-- The rows of the root mean squared error (pandas_functions.py:188-193). -/
def rmseRows (a : Arr2) (tv : Option (List ℝ)) (incRmse : Bool) : Py Table :=
  if incRmse then
    match tv with
    | some t => do
      let r ← rmseAndUnc a t
      pure [((.rmse, .value), r.1), ((.rmse, .uncertainty), r.2)]
    | none => .error .assertion
  else .ok []

/-- `summary_df` (pandas_functions.py:123-202). -/
def summaryDf (a : Arr2) (tv : Option (List ℝ)) (incTrue incRmse : Bool) : Py Table := do
  checkTrue a tv
  let mean := a.columns.map pdMean                                                   -- 169
  let std := a.columns.map pdStd
  let tr ← trueRow tv incTrue
  let meanUnc := std.map (Option.map (· / Real.sqrt a.rows.length))                  -- 181
  if a.rows.length = 1 then .error .zeroDivision                                     -- 182
  let stdUnc := std.map (Option.map (· * Real.sqrt (1 / (2 * ((a.rows.length : ℝ) - 1)))))
  let rm ← rmseRows a tv incRmse
  pure (sortTable ([((.mean, .value), mean), ((.std, .value), std)] ++ tr ++
    [((.mean, .uncertainty), meanUnc), ((.std, .uncertainty), stdUnc)] ++ rm))

/-- `summary_df_from_array` (pandas_functions.py:12-36) with `nnames` names. -/
def summaryDfFromArray (a : Arr2) (nnames axis : Nat) (tv : Option (List ℝ)) (incTrue incRmse : Bool) : Py Table :=
  if axis = 0 then
    if nnames = a.ncol then summaryDf a tv incTrue incRmse else .error .value
  else if axis = 1 then
    if nnames = a.transpose.ncol then summaryDf a.transpose tv incTrue incRmse else .error .value
  else .error .assertion

/-- `summary_df_from_list` (pandas_functions.py:39-63) with `nnames` names; `np.stack` of an
empty list raises `ValueError`. -/
def summaryDfFromList (results : List (List Cell)) (nnames : Nat) (tv : Option (List ℝ)) (incTrue incRmse : Bool) :
    Py Table :=
  if results.all (fun r => r.length = nnames) then
    if results = [] then .error .value
    else summaryDf ⟨nnames, results⟩ tv incTrue incRmse
  else .error .assertion

/-- `array_ratio_std` (pandas_functions.py:429-453), one element. -/
def ratioStd (n sn d sd : Cell) : Cell := do
  let n ← n
  let sn ← sn
  let d ← d
  let sd ← sd
  let a ← nanDiv sn n
  let b ← nanDiv sd d
  let r ← nanDiv n d
  pure (Real.sqrt (a ^ 2 + b ^ 2) * r)

/-- The ratio of two cells. -/
def cellDiv (x y : Cell) : Cell := do
  let x ← x
  let y ← y
  nanDiv x y

/-- `get_eff_gain` (pandas_functions.py:352-390), one element. -/
def effGain (b sb m sm : Cell) (adjust : ℝ) : Cell × Cell :=
  ((cellDiv b m).map (fun r => r ^ 2 * adjust), do
    let r ← cellDiv b m
    let u ← ratioStd b sb m sm
    pure (2 * r * u * adjust))

/-- A row of a table. -/
def Table.row (t : Table) (c : Calc) (r : Res) : Py (List Cell) :=
  match t.find? (fun x => x.1 = (c, r)) with
  | some x => .ok x.2
  | none => .error .key

/-- `get_eff_gain` (pandas_functions.py:352-390) on two tables. -/
def gainRows (base meth : Table) (stat gain : Calc) (adjust : ℝ) : Py Table := do
  let b ← base.row stat .value
  let bu ← base.row stat .uncertainty
  let m ← meth.row stat .value
  let mu ← meth.row stat .uncertainty
  let g := List.zipWith (fun x y => effGain x.1 x.2 y.1 y.2 adjust) (b.zip bu) (m.zip mu)
  pure [((gain, .value), g.map Prod.fst), ((gain, .uncertainty), g.map Prod.snd)]

/-- The rows that a method other than the first one gets (pandas_functions.py:265-285). -/
def gainsOf (base meth : Table) (incRmse : Bool) (adjust : ℝ) : Py Table := do
  let s ← gainRows base meth .std .stdGain adjust
  if incRmse then
    let r ← gainRows base meth .rmse .rmseGain adjust
    pure (s ++ r)
  else pure s

/-- `adjust_nsamp[0] / adjust_nsamp[i]`, or 1 (pandas_functions.py:269-275).  Division by
zero gives inf or nan. -/
def adjustment (nsamp : Option (List ℝ)) (i : Nat) : Py ℝ :=
  match nsamp with
  | none => .ok 1
  | some l =>
    match l[0]?, l[i]? with
    | some a, some b => npDiv a b
    | _, _ => .error .index

/-- The tables of the methods after the first one, `i` being the number of the next method. -/
def laterTables (nnames : Nat) (tv : Option (List ℝ)) (incRmse : Bool) (nsamp : Option (List ℝ)) (base : Table) :
    Nat → List (List (List Cell)) → Py (List Table)
  | _, [] => .ok []
  | i, vals :: rest => do
    let t ← summaryDfFromList vals nnames tv false incRmse                           -- 262
    let adjust ← adjustment nsamp i
    let g ← gainsOf base t incRmse adjust
    let ts ← laterTables nnames tv incRmse nsamp base (i + 1) rest
    pure ((t ++ g) :: ts)

/-- `efficiency_gain_df` (pandas_functions.py:205-306): for every method its rows, and the row
of true values if it is asked for (`true_values` has to have one value per column then).  Names
of methods which are not distinct (or empty) raise `ValueError` when they are made categories
(pandas_functions.py:294-296); `pd.concat` of no tables raises `ValueError`. -/
def efficiencyGainDf (names : List String) (values : List (List (List Cell))) (nnames : Nat) (tv : Option (List ℝ))
    (incTrue incRmse : Bool) (nsamp : Option (List ℝ)) : Py (List (String × Table) × Table) := do
  if nsamp.any (fun l => l.length ≠ names.length) then .error .assertion             -- 256
  if names.length ≠ values.length then .error .assertion                             -- 257
  match values with
  | [] => .error .value
  | vals :: rest => do
    let base ← summaryDfFromList vals nnames tv false incRmse
    let ts ← laterTables nnames tv incRmse nsamp base 1 rest
    if ("" :: names).Nodup then
      let tr ← if incTrue then
          match tv with
          | some t => if t.length = nnames then .ok [((.trueValues, .value), t.map some)] else .error .value
          | none => .ok [((.trueValues, .value), List.replicate nnames none)]
        else .ok []
      pure (names.zip (base :: ts), tr)
    else .error .value

end
end Nestcheck
