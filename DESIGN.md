# A Lean 4 model of nestcheck

Source modelled: `/repo/nestcheck/*.py` (ejhigson/nestcheck, pinned commit).  The code was never run; each
definition of the model cites the lines it was read from.

* `properties.jsonl`: the properties, C01, C02, ...
* `MANIFEST.json`: for each property its status and the exact names of the theorems.
* `AXIOMS.md`: the axioms each of these theorems depends on.
* `seeded/LOG.jsonl`: wrong programs against which the theorems were tested.

## Layout

| directory | content |
|---|---|
| `lean/Verif/Model/*.lean` | model, function by function, with file/line citations |
| `lean/Verif/Spec/*.lean`  | small specifications (live-point count, threads, ...) written without the model |
| `lean/Verif/Proofs/*.lean`| lemmas |
| `lean/Verif/Props/*.lean` | the property theorems with their own specifications (namespace `Spec`), each with a concrete case that meets the hypotheses |

Everything is in namespace `Nestcheck`; theorems of property Cxx are called `Cxx...`.

## Modelling conventions

* **Numbers.**  Loglikelihoods, parameters and weights are elements of any linearly ordered commutative ring `K`
  (discrete core: threads, births, live counts; the code only compares, adds and subtracts there) or of `ℝ` (analytic
  core: logx, logw, estimators, standard deviations, plots).  Floating point rounding and overflow are modelled in
  `Model/Rounding`, `Model/RoundingMean` and `Model/RoundingMoments` only (C79, C84, C100, C111, C112: weights, `logz`, `param_mean`, `evidence`, `param_squared_mean`, `r_mean`, for every arithmetic that meets
  the assumptions listed there as fields of
  `FloatArith`); `nan` loglikelihoods of *samples* are modelled in `Model/Nan` only (C113), infinite ones are not; `-inf` as the starting contour of a thread is (`⊥ : WithBot K`).
  `nan` as "not yet assigned", and `nan` results, are `Option.none`.  An operation for which numpy gives a warning
  and `nan`/`inf` (log of a non-positive number, division by zero, ...) raises the pseudo exception `PyErr.undefined`
  where a later use of the value is not modelled.
* **Exceptions** are values, `Except PyErr α`, with the Python type of the exception.  "Raises AssertionError" and
  "raises IndexError" are different statements.
* **Global state** (`numpy.random` state, warnings issued) is threaded through a monad `M σ` which, as Python does, keeps
  the state changes made before an exception.
* **External calls** are parameters, with the contract that is assumed written as fields of a structure:
  `np.argsort` (`Argsort`: some permutation that sorts, ties broken in any way), `numpy.random` (`Rng`: draws have the
  requested number and range, `shuffle` permutes, `seed` determines the state; `NormalRng`, a total function although numpy refuses a negative scale), process pools (`Schedule`: any
  order of completion, any state of the worker processes), the file system (`Disk`; `Fault`: any failing step), the clock,
  formatting and parsing of numbers (`Codec`: what is printed is one token which reads back as the same number),
  `'%f'` (`millionths`), scipy's distances (`Distances`: arbitrary functions; C81: the formulas of scipy), the functions of the user (estimators,
  `ftheta`, `logl_given_logx`, processing functions: arbitrary).  Theorems hold for all of them.
* Loops are structural recursions; the one `while` loop takes fuel equal to the number of unlabelled samples and
  C08 proves that the fuel suffices.
* Mutable arrays are values, except in `Model/Alias` (C74), where the `thread_labels` arrays of the arguments of
  `combine_ns_runs` are objects in memory which runs can share.  Where the code changes an argument in place in a way a caller can see, the function returns
  the changed argument as well (`plot_run_nlive`), or the fact is listed below under "not modelled".

## What is modelled

| file | functions | model |
|---|---|---|
| data_processing.py | `process_samples_array`, `birth_inds_given_contours`, `sample_less_than_condition`, `threads_given_birth_inds` | `Model/DataProcessing`; `Model/Nan` |
| | `process_multinest_run`, `process_dynesty_run` | `Model/Packages` |
| | `process_polychord_run`, `process_polychord_stats` | `Model/Stats` |
| | `batch_process_data`, `process_error_helper` | `Model/Parallel` |
| ns_run_utils.py | `run_estimators`, `array_given_run`, `dict_given_run_array`, `get_run_threads`, `combine_threads`, `combine_ns_runs`, `check_ns_run` and its parts, `get_logw`, `get_w_rel`, `get_logx`, `log_subtract` | `Model/NsRun`, `Model/Weights`, `Model/Estimators`; `Model/Alias`; `Model/Rounding`; `Model/Nan` |
| estimators.py | all estimators, `weighted_quantile` | `Model/Estimators`; `Model/ParamInd`; `Model/NanTheta` |
| | `get_latex_name` | `Model/LatexName` |
| error_analysis.py | `run_std_bootstrap`, `run_bootstrap_values`, `run_ci_bootstrap`, `run_std_simulate`, `bootstrap_resample_run`, `implementation_std`, `run_thread_values`, `pairwise_distances`, `statistical_distances` | `Model/ErrorAnalysis` |
| diagnostics_tables.py | all functions | `Model/Diagnostics` |
| pandas_functions.py | all | `Model/Pandas`, `Model/Diagnostics`, `Model/Paper`, `Model/Multi` |
| parallel_utils.py | `parallel_apply`, `parallel_map` | `Model/Parallel` |
| io_utils.py | all | `Model/Cache`, `Model/CacheExt` |
| write_polychord_output.py | all (`fmt` enters as a rounding function; files of numbers are modelled by the numbers read from them; a run without the key 'output' and failures of the file system are not modelled) | `Model/DeadBirth`, `Model/Stats`, `Model/WriteRun` |
| dummy_data.py | all | `Model/DummyData` |
| plots.py | the data drawn by `plot_run_nlive`, `bs_param_dists`, `param_logx_diagram`, `plot_bs_dists`; `alternate_helper`, `weighted_1d_gaussian_kde`, `rel_posterior_mass`, `average_by_key`, `kde_plot_df` | `Model/Plots`, `Model/KdePlot` |
| all | keyword arguments: defaults, unknown names, dictionaries handed on | `Model/Kwargs`, `Model/KwargsWrite`, `Model/PlotsKwargs` |

numpy, Python and pandas primitives used by several of them are in `Model/Py` (exceptions, monad) and `Model/Numpy`.

**Not modelled:** everything that only concerns appearance (matplotlib, fgivenx, colors, labels; the drawing libraries are
assumed not to raise and not to touch the random state), tqdm,
`select_tqdm`, the `logl_warn_only`/`logl_init` style options except where named, memory
limits and pickling of arguments of worker processes, floating point rounding (except for C79, C84, C100, C111 and C112), the text of messages (their kind is
modelled), broadcasting of arrays with wrong shapes except where a theorem mentions it.
`np.random.randint(lo, hi, 0)` is assumed to return an empty array also if `lo ≥ hi`.

## Per-property notes

| id | what is modelled | how it is proved |
|---|---|---|
| C01-C04 | `processSamples`: argsort, `birthInds`, `threadsGivenBirthInds`, `delta_nlive` loop | threads are the maximal birth-linked chains (strong induction along the births); live counts by telescoping starts and ends; `Argsort` arbitrary |
| C05-C07, C09 | `birth_inds_given_contours` with plateaus, `sample_less_than_condition` | loop invariant over assigned indexes; Hall's condition for ascending thresholds gives "fails only if no allocation exists" |
| C08 | `threads_given_birth_inds` with fuel | measure = number of unlabelled samples; C08_raises: exactly when it raises AssertionError (the chain of births from a thread start reaches the smallest birth index); C08_order, C02_order: the numbering of the threads (list of starts sorted by contour, then position) |
| C10, C35, C53 | random state in `M` | each function equals get state, set a fixed state, rest, restore; exceptional exits: concrete leak |
| C11, C12, C63 | loading, column stripping, asserts; dynesty arrays | reduction to C01; counting thread ends; iff with the asserts |
| C13, C46, C47, C65 | pool with arbitrary completion order and worker states | stable sort of a permutation of keyed results is the sequential result |
| C14, C62 | writer and reader as functions on characters, Python's `split`, `readlines` | token lemmas, index arithmetic in the number of clusters; round trip as iff; the reader depends on the words of the lines only (`C62_layout`) |
| C15, C16 | `run_dead_birth_array` | births of the threads; composition with C01-C03; C16_static: labels in order of first samples are determined by the division into threads |
| C17-C23, C64 | splitting and combining | counting starts and ends below each sample; multiset arguments; exact conditions for failure |
| C24 | `check_ns_run` | iff with a declarative predicate |
| C25-C33, C57, C58, C61 | logx, logw, estimators, `np.interp` over `ℝ` | telescoping, convexity, monotonicity of interpolation; independent definition of the weighted quantile |
| C34, C36, C37, C40 | `bootstrap_resample_run` | C22/C23 for arbitrary draws; counterexample for dynamic runs |
| C38, C39, C41, C42, C48, C49, C66 | statistics over `ℝ` | algebra; for the row order of C66, injectivity of the sort key |
| C43-C45, C60 | file map, pickle as open/dump/close steps with a fault at any step | refinement to a write-once map over arbitrary histories |
| C47, C67, C68 | tables as labelled rows | composition of C33, C46, C48, C61 |
| C50 | kde | `gaussianPDFReal` of Mathlib, integral of a finite mixture |
| C51, C52, C54, C69, C70 | rows with nan padding, trapezium rule, in-place `logx[0] = 0` | list induction; composition with C28, C34, C36 |
| C71-C73 | `write_run_output` over files, `run['output']` and random state | composition of C14, C16, C35, C61; the law of the selection is the volume of a box in `Fin n → ℝ` |
| C74 | `combine_ns_runs` with label arrays in memory, `deepcopy` with its memo, in-place `+=` | simulation of `combineRuns` by induction over the loop; labels only grow, so a shared array has no label 0 left |
| C75 | `paper_format_efficiency_gain_df` on the sorted table, `str.replace`, `np.rint` | C66 gives the table; keys of the sort are strictly increasing, so the sorted table is known; `str.replace` on plain names |
| C76 | `kde_plot_df`: shape of the array of axes, `gaussian_kde` of scipy for unweighted one dimensional samples | index arithmetic; C50 |
| C77 | `get_logx`, `evidence` in a random world: the draws are a random variable with the law of independent uniform numbers (hypothesis `IidUniform`) | integrals of log, log² and powers over [0, 1); product measures; variance of a sum of independent variables |
| C78 | `bootstrap_resample_run` in a random world: joint law of the indexes drawn (hypothesis `IndependentDraws`) | C34 and C36 give the samples of a replication as a function of the indexes; mean and variance of a sum over a product of uniform measures |
| C79 | `get_logx`, `get_logw`, `get_w_rel`, `log_subtract`, `logz` in rounded arithmetic on extended reals (`Model/Rounding`; nan is an error) | bounds kept by monotone rounding (with exp(-inf) = 0), as all bounds used are integers or floats; the exact arithmetic agrees with `Model/Weights`; instances: exact, and integers with overflow at 1000 |
| C80 | processes in `save_load_result` sharing one file; a step is one operation on the file (`Model/CacheConc`); settings: load, save, overwrite; the directory exists | invariants of the transition system, by induction over runs; counterexample runs |
| C81 | `statistical_distances` with scipy's formulas for the three distances (`Model/Distances`); the p-value is a parameter | sums over neighbouring samples; the monotone plan (overlaps of quantile intervals) attains the bound; Cauchy–Schwarz for the energy distance |
| C82 | the pipeline `process_samples_array` / `process_multinest_run` → estimators → error analysis | composition; every estimator that applies returns a number on every run with positive live counts, hence on every replication and every thread |
| C83 | estimators on two runs with close loglikelihoods, log weights and parameters; no new model code | weights change by at most a factor exp(ε); a fraction of the total moves by at most tanh(ε/2); comparison of two piecewise linear functions through the same values; `C83_jump`: not continuous in the values |
| C84 | `get_logw`, `logz` and `param_mean` in rounded arithmetic (`Model/Rounding`, `Model/RoundingMean`; expected prior volumes only) | error analysis in the standard model (`Spec.Accurate`): sums in any order, `log_subtract` with the gap 1/M between log volumes, logsumexp, quotients; the effect of the errors of log weights by C83; `Props/Binary64`: IEEE 754 rounding to nearest even (with subnormal numbers and overflow) meets the assumptions of C79 and C84, bounds for 64 bit floats |
| C85 | `array_given_run`, `dict_given_run_array` (`Model/NsRun`) | `arrayGivenRun` succeeds iff the columns have the same length, with the rows given by position; sums of differences of live counts telescope, so the round trip holds iff first count, positivity and last count fit; for processed runs by C16 (`C85_live_threads`) |
| C86 | Reparametrisation: all stages that carry `theta` along, `run_estimators`, bootstrap and simulated error bars | `Spec.Carried g x x'` says that `x'` does the same as `x` with the result mapped by `g`. It is proved stage by stage for `Run.mapTheta f`, for any `f`; the estimators follow from linearity of weighted means and of `np.interp` in its values; error bars by affine equivariance of mean, standard deviation and sorted order. Reflection via the exact quantile (C31). |
| C87 | The sampler itself, as a transition system (`Spec/Sampler.lean`; it is no part of nestcheck), and `process_samples_array`, `process_multinest_run` on what it writes | Invariants of `Sampling live its final` by induction on executions: points are conserved, contours ascend, the live number is `liveAt` of all points. Then C01–C03 and the maximality of threads (C02); an interrupted execution is completed by using up its live points (`exists_drain`). The converse builds an execution from the sorted array. |
| C88 | `process_samples_array` and `combine_ns_runs` together; heirs and lineages (`Spec/Heirs.lean`) describe threads without labels | C02 (maximality of threads) and C19: threads are lineages (`C88_threads`), lineages of the concatenation are lineages of the arrays, live counts are sums (`liveOf_process`), and C87 gives the positive live counts which `combine_ns_runs` needs. `C88_lowest_birth_fails` shows that the condition on the lowest contour is needed. |
| C89 | processing, dividing, combining and resampling of runs under a strictly increasing function of the loglikelihood (`Props/Monotone.lean`); weights, estimators and error bars under a constant factor of the likelihood (`Props/MonotoneValues.lean`) | each function is shown to commute with the change (`Spec.Carried`: same value with the function applied, same exception, same warnings and draws). `Spec.SortsAlike` says that the sort only compares (`C89_stable`: a stable sort does). `C89_nearest_fails` shows that the condition on nearest birth points is needed. |
| C90 | keyword arguments as dictionaries of values (`Model/Kwargs.lean`, `Model/KwargsWrite.lean`; random_seed=None of `implementation_std` in `Model/ImpSeed.lean`, also for C41): `kwargs.pop` with defaults, the `TypeError` for those left, dictionaries handed on by `batch_process_data`, `parallel_apply`, `save_load_result` and `run_list_error_summary` | for each function: an unknown key is refused with the state unchanged; equal dictionaries give equal results; without unknown keys the call is that of the model used elsewhere with defaults filled in. What a value of the wrong type does is modelled by `TypeError` for most (the exact exception is not claimed). |
| C91 | An ideal sampler in terms of enclosed prior volumes (`Spec/Volumes.lean`; no part of nestcheck), joined to `Sampling` of C87, `process_samples_array` and `get_logx` | The others of n+1 uniform draws are uniform below the largest, which has the law of a root (split by the position of the maximum, scaling of product measures, distribution functions); induction over the iterations for the joint law and for the absence of ties. That the volume enclosed by a prior draw is uniform is how the sampler is specified, not proved from a prior on parameters. |
| C92 | An ideal sampler whose allocation of points follows any measurable rule (`Spec/Adaptive.lean`; no part of nestcheck), joined to `Sampling`, `process_samples_array` and `get_logx` | Which live point encloses the most is uniform and the others are uniform below it (a substitution on the cube for each possible maximum); hence the mean of any measurable function of the removals is an iterated mean (`lintegral_iterate`), from which the law of the shrinkages and the means of the log volumes follow by induction; ties are excluded because shrinkages are below one. The sampler may stop at any time, but there is a bound, fixed in advance, on the number of draws in all (a universe of `N` points of which it need not use all); the shrinkages are then continued with independent uniform draws (`C92_stopped`), and the means are those of the stopped sequence (`C92_mean`). |
| C93 | Several ideal samplers side by side (`Spec/Combined.lean`; no part of nestcheck), joined to `Sampling`, `process_samples_array`, `combine_ns_runs` and `get_logx` | For rules which use only the order of removal the iterated mean of C92 splits into a sum over orders times an integral over the shrinkages (`lintegral_blind`), so both are independent. Samplers side by side are one sampler with such a rule: the batches of each sampler are allotted when its own points are removed (`Layout.adaptive`), its removals restricted to one sampler are that sampler's (`Layout.alone`), and its live points are the sum (`Layout.alive_at`). C88 then gives the combined run. The restriction to at most one point added in the first iteration of each sampler comes from the finding at C19 and C88. |
| C94 | A sequence of ideal samplers as in C91 (no part of nestcheck), joined to `process_samples_array`, `evidence`, `logz` | The prior volumes which nestcheck assigns (C29) are the lengths of a division of (0, 1]; so the error is at most the integral over x of the mean of the difference between the function at the enclosed volume and at x (`weighted_error`). For every x of continuity the log volume of the sample whose cell contains x has a mean close to log x and a variance at most (1/N)(1/N - log x) where N is the smallest number of live points so far (C91), so Chebyshev's inequality and dominated convergence give the limit. A decreasing likelihood is almost everywhere continuous. The numbers of live points need no hypothesis beyond the beginning: n starting points cannot become fewer than about n times the expected volume, since each removal loses at most one of them (`start_le`). |
| C95 | Sequences of the samplers of C92 and C93, joined to `process_samples_array`, `combine_ns_runs`, `evidence`, `logz` | The variances of C91 are not available for adaptive numbers of live points. Instead the squared deviation of the log volume from its expected value, at the sample whose cell contains x, is bounded in mean by induction along the iterated mean of C92, with the bound spent step by step (`expect_dev`); then as for C94. For combined runs the merged removals are those of the joint sampler of C93. |
| C96 | The samplers of C92 with parameters (`Spec/Posterior.lean`: `IidPoints`, `PosteriorExecution`, `posteriorMean`; no part of nestcheck), joined to `process_samples_array`, `param_mean`, `param_squared_mean`, `r_mean` | Each removed point has its own spot, so given the volumes the weighted sum over the spots has a variance of at most the largest cell of prior volume (`spotted_variance`), and every cell is small since the numbers of live points are large (`cell_width`); the mean over the spots is a function of the volumes and converges as for C95. A ratio of two sums which converge in mean converges in probability. |
| C97 | As C96, joined to `param_cred`, `r_cred`, `weighted_quantile` | C96 for the indicator of the parameters up to a number gives the weighted distribution function at that number; the quantile exceeds a number if the weight up to it plus the largest weight is at most the probability, and conversely (`quantile_bounds`). |
| C98 | `get_logx`, `get_logw`, `evidence`, `logz` with `simulate=True`; `Spec/Simulated.lean`: `Delivers` (the next uniform numbers of the generator, however many are asked for at once, as numpy's stream does), `IidSimulated` | The simulated log volumes have means and variances as in C77, so each simulated volume is in the mean close to the expected one (`simVolume_close`, `simCut_uniform`). Summing by parts, the sum of differences of prior volumes times a monotone function is a sum of differences of volumes with total weight the range of the function (`simWeighted_close`); this gives (a) and, with C95, the limit for monotone functions, hence for step functions, hence for all bounded functions continuous almost everywhere (`simLimit_continuous`). |
| C99 | As C98, joined to `param_mean`, `param_squared_mean`, `r_mean`, `param_cred`, `r_cred` | As C96 and C97 with the simulated prior volumes as weights; the sum of their squares tends to zero in mean since each is at most the simulated weight of its block of prior volume (`simWidth_squares`). |
| C100 | as C84, also with simulated prior volumes, and with infinite values | products, sums and the quotient keep `Spec.Adds`: whether infinities of either sign occur, otherwise a bound; the sum of the weights is at least 1 (C79) |
| C101 | as C78, with expected prior volumes and the evidence estimator | the numbers of live points of a replication are again constant, so its evidence is the integral over t of a Lipschitz function of the numbers of its samples with likelihood below t; those are sums of independent draws, so their mean deviation is at most a standard deviation |
| C102 | as C95 and C101; `StaticSchedule` (Spec/Static.lean) is a stopping schedule which adds at most one point per removal and does not resume | the thread labels which the code assigns are computed from the removals (each added point continues the thread of the point it replaces); the mean sum of squares of the numbers of samples of threads among the first k is at most 2 (k + k^2 / n) + 2 n, since the removed point is uniform among the live points; with C101 given the run, and C95 for the run |
| C103 | as C102; `drawStates` lists the random states in which successive replications draw their threads (the state is restored after a replication with a seed and advances otherwise) | the array of `run_bootstrap_values` has the `logz` of the replications of C102 in its row; finitely many replications are close at once; standard deviation, flipped values and interpolated quantile of values close to a number are close to zero or to the number |
| C104 | the five functions with their options in a dictionary whose values are those of `PlotVal` (a value of a wrong kind is a `TypeError`; options of appearance are accepted and ignored) | each is equal to its model with plain arguments, by looking up the options in the dictionary from which others have been removed; random state from C53 |
| C105 | as C98 and C99; the generator delivers one stream of independent uniform numbers (`Streams`), which is cut into blocks of the length of the run | the numbers of each simulation have the law needed in C98 and C99, although the place of the block is random (it depends only on the sampler); finitely many simulations are close at once; the standard deviation of values close to a number is small |
| C106 | as C68, C95-C97 and C103 | union bound over the runs; what the table shows is determined by the values (C68) and the implementation errors are at most the variation of the values; for static samplers the replications always have a value (C103).  The samplers need not be independent of each other.  The seeds of the bootstrap are `range(n_simulate)` in this function, so nothing is claimed about the size of the row `bootstrap std mean`. |
| C107 | `summary_df_from_multi` for any levels and `inds_to_keep` (`Model/Multi`): the groups, the renaming of the level 'calculation type' in a copy, the joined level, the order of the levels, the row with true values | levels are looked up by name in the specification, by number in the model; injectivity of the joined names ('x mean' determines x); equal to the model used for C68 on tables of `run_list_error_values`.  Outside: level values other than strings, kept levels named 'result type' or 'calculation type temp', frames without rows. |
| C108 | as C88, C95-C97, for several samplers with draws of their own (`Spec/Several`) | the samplers side by side are one adaptive sampler, in which the sampler of the removed point decides what is drawn: its rule is adapted and measurable, its removals restricted to the points of one sampler are those of this sampler (induction over the removals of all samplers, with the birth contours), so the samples of the files together are those of one run; `combine_ns_runs` then gives the run of C88, and C95-C99 apply.  Executions exist almost surely. |
| C109 | the functions named there, as in the other properties | evaluation of the model up to the failing statement for all inputs with the fault.  Lengths which numpy would broadcast (one, or two live counts) are left out of the hypotheses, because the model does not broadcast. |
| C110 | the three estimators with an integer `param_ind` (`Model/ParamInd`) | the columns are equal, so the estimators are; for natural numbers they refine `Model/Estimators` |
| C111 | `evidence`, `param_squared_mean`, `r_mean` in rounded arithmetic (`Model/RoundingMoments`; expected prior volumes only) | C84's weights; squares and roots (an error of the argument of a root costs a relative error and the root of the underflow error), quotients by the sum of the weights; `exp` of C84's bound on `logz`; the order of the additions in a row is any tree with the columns as leaves |
| C112 | the estimators of C84 and C111 with `simulate=True` in rounded arithmetic | as C84, with the step `log(u)/n` (error of the logarithm and of the division) and the smallest step drawn in place of the reciprocal of the largest live count; the random numbers of the rounded and the exact calculation are the same; zero (which `random_sample` may return) is excluded since its step is infinite |
| C113 | `check_ns_run`, `dict_given_run_array`, `birth_inds_given_contours`, `process_samples_array`, `process_multinest_run`, `process_polychord_run`, `process_dynesty_run`, for arrays with nan (`Model/Nan`: numbers are `some x`, nan is `none`, comparisons with nan are false, `np.argsort` puts nan last) | a list with nan differs from every list in the sense of `np.array_equal`; no nan satisfies `birth <= logl`; the minimum and the maximum of an array with nan are nan, so that MultiNest files with a nan loglikelihood fail at the comparison of dead and live points, before the arrays are stacked (`C113_multinest_logl`).  For arrays of numbers the functions refine those of the other modules (`C113_check_numbers`, `C113_process_numbers`, `C113_dict_numbers`, `C113_dynesty_numbers`, `C113_multinest_numbers`, `C113_polychord_numbers`), which keeps the two models together.  Not modelled: infinite loglikelihoods |
| C114 | the estimators and `weighted_quantile` for parameters with nan (`Model/NanTheta`; loglikelihoods are numbers); `np.interp` with nan among its values | the sorted values are numbers followed by nan; the sample points of the interpolation increase strictly, the last number's lies half its weight below the share of the numbers; replacing nan in the interpolation when the result is a number; refinement of `Model/Estimators` (`C114_numbers`) |
| C115 | `process_samples_array` for arbitrary arrays of numbers (`Model/DataProcessing`, the same definitions as C01-C10) | invariant of the loop over births without the hypothesis that no contour has more births than deaths; `threads_given_birth_inds` cannot fail as -1 is the smallest birth index (C08); the loop over threads for birth indexes which need not precede their samples; the causes of exceptions by induction over the births (the last assertion of `birth_inds_given_contours` cannot fail); samples born strictly below their loglikelihood have valid birth indexes (`C115_strict`, `C115_live`); hence estimators apply (`C115_estimable`, `C115_estimates`, through C82); births and deaths on a contour are matched by the pigeonhole principle for the starts of threads (`C115_proper`, `C115_bootstrap`); `C115_no_live_points` is an execution with nlive 0 |
| C116 | `pickle_save` and `pickle_load` with the argument `extension` (`Model/CacheExt`, on the disk of `Model/Cache`) | case analysis over the steps of a save, as for C43-C45; the directory of the name with the time appended is that of the file if neither contains a slash; `C116_lost` is the negation for extensions with a slash; for '.pkl' the functions are those of C43-C45 (`C116_default`) |
| C55, C56 | dummy data over `Rng` | C22/C23, C15; C55_labels, C55_process: sorted thread starts, C16_static; counterexamples |
| C59 | names as characters | decoding functions, so names are injective up to the millionth of a per cent |

All properties in `properties.jsonl` are expressed in the model; none is `not_applicable`.  A first version of several
properties was false of the code.  Their statements were then made conditional, and the negation of the unconditional
claim is a theorem of its own (next section).

## Findings: where the code does not do what one would expect

Each is a theorem (in brackets) unless marked (reading).

1. A thread that starts exactly on the lowest loglikelihood is counted twice, so `combine_threads` raises AssertionError
   (`combineThreads_lowest`, `C18_lowest_birth_fails`, `C19_lowest_birth_fails`, `C56_lowest_start`).  Bootstrap
   replications of valid dynamic runs can fail for this reason even with `ninit_sep=True` (`C37_ninit_sep_fails`).
2. `get_dummy_run` with a finite `logl_start` always raises (`C55_finite_start`).
3. The random state leaks when an exception is raised in `birth_inds_given_contours`, `combine_threads`,
   `bootstrap_resample_run`, `bs_param_dists` (`C10_leak_on_error`, `C10_combine_leak_on_error`, `C35_leak_on_error`,
   `C53_bs_leak`, `C53_bs_many`), in `implementation_std` with a negative uncertainty (`C41_negative`), and always in `param_logx_diagram` with thinning (`C53_thin`): the state saved at the
   beginning is overwritten in the loop.
4. `combine_threads` with ties within a thread can fail depending on how argsort breaks ties (`C22_ties_fail`); the thread
   decomposition is not kept by a dead-birth file (`C16_threads_change`).
5. `param_logx_diagram` with `threads_to_plot` and four or more runs raises IndexError (`C53_four_runs`).
6. A nan value of an `ftheta` shifts values and weights against each other in `alternate_helper` (`C51_nan`,
   `C51_nan_even`).
7. `plot_run_nlive` changes the caller's runs (`C54_effect`, `C54_unchanged`, `exDict_changed`).
8. The cache: an interrupted save makes every later call raise (`C45_poisoned`); an error of `os.makedirs` loses the
   computed result (`C45_mkdir`); two saves in the same second overwrite each other (`C44_collision`).  The name
   PermissionError is a local variable in `pickle_save`, so all OSErrors are caught (modelled so).  The cache key ignores the
   arguments (by design; C43 is about names).
9. `.stats` files do not round trip for lists of length one, a number of clusters different from the number of cluster
   evidences, and lists of different lengths (`C14_round_trip`, an iff).
10. `process_dynesty_run` without `samples_n` fails for dynamic results (`C63_no_counts`).
11. `run_ci_bootstrap` flips the skew of the distribution twice by default (`C39_formula`).
12. `thread_values_df` compares the thread counts of the first *completed* run with those of the first run in the list, so with
    runs of different numbers of threads it raises or not depending on the schedule (`C47_threads_schedule`).
13. `summary_df` leaves nan values out of means but counts them in standard errors (`C48_nan`); with one row it raises
    ZeroDivisionError (`C48_errors`).
14. `combine_ns_runs` with the same run object twice always raises (`C74_shared_fails`): `deepcopy` of the list keeps the
    sharing and the labels are then shifted in place twice.
15. `paper_format_efficiency_gain_df` gives methods called 'X' and 'dynamic X' the same row names (`C75_collision`), and
    raises ValueError if a mean in the column samples is nan (`C75_nan`).
16. `kde_plot_df` cannot draw a table with one column with its defaults (TypeError), nor one with at most `nrows` > 1 columns
    (IndexError): `plt.subplots` then returns no two dimensional array (`C76_fails`).
17. (reading) `np.loadtxt` of a one-row file gives a one-dimensional array, and processing raises IndexError (modelled in
    `loadTable`); `run['settings']` makes `check_ns_run`, hence `write_run_output`, fail (`C24_keys`, `C73_rejects`); `sample_less_than_condition`'s docstring says
    "greater"; `implementation_std` with `random_seed=False` seeds with 0; `batch_process_data` changes the caller's
    `func_kwargs`, `parallel_apply` its `tqdm_kwargs`, `write_run_output` its `run['output']`.
18. `np.random.random` can return exactly 0; with `simulate=True` the weights then contain nan if the draw is not for one
    of the last two samples (`C79_zero_draw`).  All other theorems on simulated weights assume positive draws.
19. Processes sharing a cache file: a load can return a value that no process computed, as `pickle_save` writes in place.  With a
    deterministic function this happens while two processes write (zeros in a hole, `C80_holes`), for good if one is killed
    (`C80_holes_killed`); with different results it may stay so without any interruption (`C80_mixture`).  Writing to a
    temporary file and renaming it would avoid this.
20. `weighted_quantile` (hence `param_cred`, `r_cred`) is not continuous in the values: when two samples of different weight
    exchange places, however close their values are, a quantile may jump by most of the distance to the next sample
    (`C83_jump`: from 1 to 1/5).
21. `combine_threads` without `assert_birth_point` moves a thread start which is not a sample to the nearest sample.  Which one
    is nearest depends on distances of loglikelihoods, not only on their order, so live counts of bootstrap replications of runs
    with such thread starts are not invariant under monotone changes of the likelihood, although everything else in the
    processing is (`C89_nearest_fails`, C89).

22. Options (C90): an unknown option goes unnoticed if the result is loaded from a cache (`C90_cached`) or, in `func_kwargs` of
    `batch_process_data`, if there are no files (`C90_no_files`).  `errors_to_handle` given inside `func_kwargs` is replaced by
    that of the call or its default (`C90_batch`), and is left in the caller's dictionary, with which `process_polychord_run`
    then raises (`C90_func_kwargs_after`).  The docstring of `process_polychord_run` says its options go to `check_ns_run`; they
    go to `birth_inds_given_contours`.

23. `param_cred` and `r_cred` count nan as larger than every number, so that lower bounds of a parameter with nan among its
    values look valid while its mean is nan (`C114_param_cred`, `C114_mean`).

24. When `threads_given_birth_inds` warns that samples have no thread label and assigns them at random, the run passes
    `check_ns_run` but its `nlive_array` can contain 0 (`C115_no_live_points`), for which `get_logx`, and so every estimator, raises
    `AssertionError`.

25. `pickle_save` makes the directory of `name + extension` only.  With overwrite_existing=False, an existing file and an
    extension containing a slash, the name with the time appended is in another directory, and the data is not saved: there
    is only a warning (`C116_lost`).

## Trusted base

* Lean 4.33.0's kernel, and Mathlib's definitions (`ℝ`, `exp`, `log`, integrals, `List`, permutations).
* Axioms: at most `propext`, `Classical.choice`, `Quot.sound`; per theorem in `AXIOMS.md`.  No axioms were added, there is
  no `sorry`, `admit`, `native_decide` or `bv_decide`.
* The reading of the Python source recorded in the comments of the model, the contracts of external calls
  listed above, and the idealisation of floats as exact numbers (C79, C84, C100, C111, C112: the assumptions on rounded arithmetic; C84 shows that IEEE 754 formats meet them if `exp`, `log` and `sqrt` are rounded correctly).
* That the statements say what the English says: to check, read `Props/*.lean` and the specifications they use; the seeded wrong
  programs show that the theorems fail when the claims become false.
