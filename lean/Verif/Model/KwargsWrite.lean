import Verif.Model.Kwargs
import Verif.Model.Multi
import Verif.Model.WriteRun

/-
The keyword arguments of `write_run_output` and `summary_df_from_multi`; see Model/Kwargs.
-/

namespace Nestcheck
noncomputable section
variable {σ F : Type}

/-- `write_run_output` (write_polychord_output.py:16-119).  `rd fmt x` is the number read from `fmt % x`; `hasOutput` tells
whether the run has the key 'output'.  Formats which are no strings, numbers of replications which are no integers and values of
`logl_init` which are no finite numbers are outside the model. -/
def writeRunKw (A : Argsort ℝ) (R : Rng σ ℝ) (rd : Path → ℝ → ℝ) (fl : Option ℝ → F) (CF : Codec F) (CI : Codec Int)
    (run : Run ℝ) (settings : Option Settings) (hasOutput : Bool) (kw : Kwargs) : M (Written σ F) Unit := do
  let writeDead := kw.get "write_dead" (.bool true)                   -- 69
  let kw := kw.without "write_dead"
  let writeStats := kw.get "write_stats" (.bool true)                 -- 70
  let kw := kw.without "write_stats"
  let posteriors := kw.get "posteriors" (.bool false)                 -- 71
  let kw := kw.without "posteriors"
  let equals := kw.get "equals" (.bool false)                         -- 72
  let kw := kw.without "equals"
  let meansErrs := kw.get "stats_means_errs" (.bool true)             -- 73
  let kw := kw.without "stats_means_errs"
  let fmt := kw.get "fmt" (.str "% .14E".toList)                      -- 74
  let kw := kw.without "fmt"
  let nSim := kw.get "n_simulate" (.nat 100)                          -- 75
  let kw := kw.without "n_simulate"
  let init := kw.get "logl_init" (.real (-10 ^ 30))                   -- 76
  let kw := kw.without "logl_init"
  M.lift (noneLeft kw)                                                -- 77-78
  if ¬ hasOutput then M.raise .key                                    -- 81
  else
    match fmt, nSim.toNat, init.toReal with
    | .str f, .ok n, .ok x =>
      writeRun A R (rd f) fl CF CI run settings
        { writeDead := writeDead.truthy, writeStats := writeStats.truthy, posteriors := posteriors.truthy,
          equals := equals.truthy, meansErrs := meansErrs.truthy, nSim := n, loglInit := x }
    | _, _, _ => M.raise .undefined

/-- `summary_df_from_multi` (pandas_functions.py:66-120).  All options but `include_true_values` go to `summary_df`, which
pandas calls for every group; if it does not know one of them, the first call raises `TypeError`. -/
def summaryDfMultiKw (multi : MultiFrame) (kw : Kwargs) : Py MultiFrame × MultiFrame :=
  let inds := kw.get "inds_to_keep" .none
  let kw := kw.without "inds_to_keep"
  let incTrue := kw.get "include_true_values" (.bool false)           -- 84
  let kw := kw.without "include_true_values"
  let tv := kw.get "true_values" .none                                -- 85
  let kw := kw.without "true_values"
  let incRmse := kw.get "include_rmse" (.bool false)
  let kw := kw.without "include_rmse"
  match inds, tv.toReals with
  | .none, .ok tv => answer multi none tv incTrue incRmse kw
  | .names l, .ok tv => answer multi (some l) tv incTrue incRmse kw
  | _, _ => (.error .undefined, multi)
where
  /-- What `groupby` raises comes before the error of the first call of `summary_df`. -/
  answer (multi : MultiFrame) (inds : Option (List String)) (tv : Option (List ℝ)) (incTrue incRmse : Val) (rest : Kwargs) :
      Py MultiFrame × MultiFrame :=
    match noneLeft rest with
    | .ok _ => summaryDfMulti multi inds tv incTrue.truthy incRmse.truthy
    | .error e =>
      match inds.getD multi.levels.dropLast, levelNumbers multi.levels (inds.getD multi.levels.dropLast) with
      | [], _ => (.error .value, multi)
      | _, .error e' => (.error e', multi)
      | _, .ok _ => (.error e, multi)

end
end Nestcheck
