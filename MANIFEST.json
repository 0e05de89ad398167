{
 "claims": [
  {
   "property": "C01",
   "status": "proved",
   "theorems": [
    "Nestcheck.C01_nlive_exact"
   ],
   "note": ""
  },
  {
   "property": "C02",
   "status": "proved",
   "theorems": [
    "Nestcheck.C02_thread_partition",
    "Nestcheck.C02_maximal",
    "Nestcheck.C02_order"
   ],
   "note": ""
  },
  {
   "property": "C03",
   "status": "proved",
   "theorems": [
    "Nestcheck.C03_valid_lossless"
   ],
   "note": ""
  },
  {
   "property": "C04",
   "status": "proved",
   "theorems": [
    "Nestcheck.C04_row_order"
   ],
   "note": "Also independent of the sorting algorithm."
  },
  {
   "property": "C05",
   "status": "proved",
   "theorems": [
    "Nestcheck.C05_birth_inds"
   ],
   "note": "General loglikelihoods including plateaus; when the more-births-than-deaths warning is given the claim does not apply."
  },
  {
   "property": "C06",
   "status": "proved",
   "theorems": [
    "Nestcheck.C06_sample_less",
    "Nestcheck.C06_outcome_independent"
   ],
   "note": ""
  },
  {
   "property": "C07",
   "status": "proved",
   "theorems": [
    "Nestcheck.C07_no_warning"
   ],
   "note": "Plateaus included; hypotheses: no decomposition warning was given."
  },
  {
   "property": "C08",
   "status": "proved",
   "theorems": [
    "Nestcheck.C08_threads",
    "Nestcheck.C08_raises",
    "Nestcheck.C08_order"
   ],
   "note": "Every list of birth indexes (trees, cycles, self-births)."
  },
  {
   "property": "C09",
   "status": "proved",
   "theorems": [
    "Nestcheck.C09_unsorted",
    "Nestcheck.C09_birth_above",
    "Nestcheck.C09_unknown_contour",
    "Nestcheck.C09_dup_assert"
   ],
   "note": ""
  },
  {
   "property": "C10",
   "status": "proved",
   "theorems": [
    "Nestcheck.C10_birth_inds",
    "Nestcheck.C10_threads",
    "Nestcheck.C10_process_samples",
    "Nestcheck.C10_combine_threads",
    "Nestcheck.C10_leak_on_error",
    "Nestcheck.C10_combine_leak_on_error"
   ],
   "note": "Restored on return and result independent of the state, for the four functions; the leak on exceptions is proved as C10_leak_on_error and C10_combine_leak_on_error."
  },
  {
   "property": "C11",
   "status": "proved",
   "theorems": [
    "Nestcheck.C11_returns",
    "Nestcheck.C11_accepts",
    "Nestcheck.C11_constant",
    "Nestcheck.C11_missing"
   ],
   "note": "Tables with one row excluded: np.loadtxt returns a 1-d array for them and the code raises IndexError.  C11_missing: a missing file raises OSError."
  },
  {
   "property": "C12",
   "status": "proved",
   "theorems": [
    "Nestcheck.C12_static",
    "Nestcheck.C12_rejects"
   ],
   "note": ""
  },
  {
   "property": "C13",
   "status": "proved",
   "theorems": [
    "Nestcheck.C13",
    "Nestcheck.C13_error",
    "Nestcheck.C13_sequential",
    "Nestcheck.C13_untagged"
   ],
   "note": "The world of every task and the order of completion are arbitrary. Caching (save_load_result) is not part of this model. C13_sequential: same result with parallel=False when the processing function does not depend on the global state."
  },
  {
   "property": "C14",
   "status": "proved",
   "theorems": [
    "Nestcheck.C14_written",
    "Nestcheck.C14_read_back",
    "Nestcheck.C14_round_trip"
   ],
   "note": "How numbers are printed and read is left open (Codec lists the assumptions, met by intCodec); '\\r' and file system failures are not modelled."
  },
  {
   "property": "C15",
   "status": "proved",
   "theorems": [
    "Nestcheck.C15_dead_birth_roundtrip"
   ],
   "note": ""
  },
  {
   "property": "C16",
   "status": "proved",
   "theorems": [
    "Nestcheck.C16_processed",
    "Nestcheck.C16_rewrite",
    "Nestcheck.C16_rewrite_nlive",
    "Nestcheck.C16_static",
    "Nestcheck.C16_static_same",
    "Nestcheck.C16_threads_change",
    "Nestcheck.C16_labels_change"
   ],
   "note": "C16_threads_change, C16_labels_change: the thread decomposition, or the numbering of the threads, of other runs may change."
  },
  {
   "property": "C17",
   "status": "proved",
   "theorems": [
    "Nestcheck.C17_split"
   ],
   "note": ""
  },
  {
   "property": "C18",
   "status": "proved",
   "theorems": [
    "Nestcheck.C18_split_combine",
    "Nestcheck.C18_lowest_birth_fails"
   ],
   "note": "The excluded case of a thread born on the lowest sample is refuted by C18_lowest_birth_fails."
  },
  {
   "property": "C19",
   "status": "proved",
   "theorems": [
    "Nestcheck.C19_combine_runs",
    "Nestcheck.C19_lowest_birth_fails"
   ],
   "note": "C19_lowest_birth_fails: a run with a thread born on the lowest sample of all makes combine_ns_runs raise."
  },
  {
   "property": "C20",
   "status": "proved",
   "theorems": [
    "Nestcheck.C20_order",
    "Nestcheck.C20_stages"
   ],
   "note": ""
  },
  {
   "property": "C21",
   "status": "proved",
   "theorems": [
    "Nestcheck.C21_output",
    "Nestcheck.C21_single",
    "Nestcheck.C21_empty"
   ],
   "note": "Values of output are integers or lists of integers."
  },
  {
   "property": "C22",
   "status": "proved",
   "theorems": [
    "Nestcheck.C22_static",
    "Nestcheck.C22_ties_fail"
   ],
   "note": "C22_ties_fail shows that strict ascent within a thread is needed."
  },
  {
   "property": "C23",
   "status": "proved",
   "theorems": [
    "Nestcheck.C23_dynamic",
    "Nestcheck.combineThreads_lowest",
    "Nestcheck.combineThreads_below"
   ],
   "note": "Exactly one thread starting on the lowest sample is proved to make combine_threads raise AssertionError (combineThreads_lowest), as are threads which all start on finite contours below all samples (combineThreads_below)."
  },
  {
   "property": "C24",
   "status": "proved",
   "theorems": [
    "Nestcheck.C24_check_ns_run",
    "Nestcheck.C24_warning",
    "Nestcheck.C24_dup_warn",
    "Nestcheck.C24_keys",
    "Nestcheck.C24_keys_error"
   ],
   "note": ""
  },
  {
   "property": "C25",
   "status": "proved",
   "theorems": [
    "Nestcheck.C25_volumes"
   ],
   "note": "Expected and simulated volumes, any number of samples; simulated draws assumed positive. Exact real arithmetic."
  },
  {
   "property": "C26",
   "status": "proved",
   "theorems": [
    "Nestcheck.C26_expected",
    "Nestcheck.C26_simulated",
    "Nestcheck.C26_assert"
   ],
   "note": "Steps, strict decrease and the assertion."
  },
  {
   "property": "C27",
   "status": "proved",
   "theorems": [
    "Nestcheck.C27_log_subtract"
   ],
   "note": ""
  },
  {
   "property": "C28",
   "status": "proved",
   "theorems": [
    "Nestcheck.C28_rel_weights",
    "Nestcheck.C28_shift"
   ],
   "note": ""
  },
  {
   "property": "C29",
   "status": "proved",
   "theorems": [
    "Nestcheck.C29_evidence",
    "Nestcheck.C29_scaling"
   ],
   "note": ""
  },
  {
   "property": "C30",
   "status": "proved",
   "theorems": [
    "Nestcheck.C30_param_mean",
    "Nestcheck.C30_affine",
    "Nestcheck.C30_rescale",
    "Nestcheck.C30_squared",
    "Nestcheck.C30_missing"
   ],
   "note": "Value, bounds, affine equivariance, invariance under rescaling, second moment, missing parameter."
  },
  {
   "property": "C31",
   "status": "proved",
   "theorems": [
    "Nestcheck.C31_assert",
    "Nestcheck.C31_quantile",
    "Nestcheck.C31_scale",
    "Nestcheck.C31_order",
    "Nestcheck.C31_exact",
    "Nestcheck.C31_param_cred"
   ],
   "note": "Rejection, existence, bounds, monotonicity, scale, order independence, exact values; param_cred."
  },
  {
   "property": "C32",
   "status": "proved",
   "theorems": [
    "Nestcheck.C32_r_mean",
    "Nestcheck.C32_r_cred"
   ],
   "note": ""
  },
  {
   "property": "C33",
   "status": "proved",
   "theorems": [
    "Nestcheck.C33_run_estimators",
    "Nestcheck.C33_builtin"
   ],
   "note": "For any functions meeting the documented contract; the estimators of the package meet it."
  },
  {
   "property": "C34",
   "status": "proved",
   "theorems": [
    "Nestcheck.C34_bootstrap",
    "Nestcheck.C34_threads"
   ],
   "note": "bootstrap_resample_run: the returned run is exactly the drawn threads; passing threads explicitly makes no difference."
  },
  {
   "property": "C35",
   "status": "proved",
   "theorems": [
    "Nestcheck.C35_seeded",
    "Nestcheck.C35_values",
    "Nestcheck.C35_builtin",
    "Nestcheck.C35_leak_on_error"
   ],
   "note": "Seeded calls restore and do not depend on the random state; failing calls can leak it. run_bootstrap_values and its users with default seeds and deterministic estimators (all built-in ones are)."
  },
  {
   "property": "C36",
   "status": "proved",
   "theorems": [
    "Nestcheck.C36_static"
   ],
   "note": ""
  },
  {
   "property": "C37",
   "status": "proved",
   "theorems": [
    "Nestcheck.C37_dynamic",
    "Nestcheck.C37_ninit_sep_fails"
   ],
   "note": "Conditional statement, and a concrete run and draw for which ninit_sep=True raises."
  },
  {
   "property": "C38",
   "status": "proved",
   "theorems": [
    "Nestcheck.C38_flip",
    "Nestcheck.C38_std"
   ],
   "note": ""
  },
  {
   "property": "C39",
   "status": "proved",
   "theorems": [
    "Nestcheck.C39_monotone",
    "Nestcheck.C39_formula"
   ],
   "note": "Monotone, and an explicit formula with an independent definition of the interpolated quantile."
  },
  {
   "property": "C40",
   "status": "proved",
   "theorems": [
    "Nestcheck.C40_replication",
    "Nestcheck.C40_single"
   ],
   "note": ""
  },
  {
   "property": "C41",
   "status": "proved",
   "theorems": [
    "Nestcheck.C41_elements",
    "Nestcheck.C41_monotone",
    "Nestcheck.C41_reproducible",
    "Nestcheck.C41_negative",
    "Nestcheck.C41_entropy",
    "Nestcheck.C41_seed_free"
   ],
   "note": "Uncertainties are characterised relative to the normal draws of numpy (NormalRng); negative uncertainties in C41_negative."
  },
  {
   "property": "C42",
   "status": "proved",
   "theorems": [
    "Nestcheck.C42_pairs"
   ],
   "note": "scipy's distances are arbitrary functions."
  },
  {
   "property": "C43",
   "status": "proved",
   "theorems": [
    "Nestcheck.C43_step",
    "Nestcheck.C43",
    "Nestcheck.C43_once",
    "Nestcheck.C43_dirs",
    "Nestcheck.C43_dirname"
   ],
   "note": "Refinement: every history of calls equals that of a write-once map. Functions act on their own state, not on the disk."
  },
  {
   "property": "C44",
   "status": "proved",
   "theorems": [
    "Nestcheck.C44_keeps",
    "Nestcheck.C44_saves",
    "Nestcheck.C44_history",
    "Nestcheck.C44_collision"
   ],
   "note": "C44_collision is the recorded defect."
  },
  {
   "property": "C45",
   "status": "proved",
   "theorems": [
    "Nestcheck.C45_safe",
    "Nestcheck.C45_opening",
    "Nestcheck.C45_repair",
    "Nestcheck.C45_poisoned",
    "Nestcheck.C45_mkdir"
   ],
   "note": "C45_poisoned and C45_mkdir are the recorded defects."
  },
  {
   "property": "C46",
   "status": "proved",
   "theorems": [
    "Nestcheck.C46_apply",
    "Nestcheck.C46_apply_error",
    "Nestcheck.C46_sequential",
    "Nestcheck.C46_schedule",
    "Nestcheck.C46_map",
    "Nestcheck.C46_chunksize"
   ],
   "note": "concurrent.futures is assumed to run every task exactly once."
  },
  {
   "property": "C47",
   "status": "proved",
   "theorems": [
    "Nestcheck.C47_values",
    "Nestcheck.C47_values_error",
    "Nestcheck.C47_bootstrap",
    "Nestcheck.C47_threads",
    "Nestcheck.C47_threads_schedule",
    "Nestcheck.C47_no_runs",
    "Nestcheck.C47_no_estimators",
    "Nestcheck.C47_one_run"
   ],
   "note": "Schedules are arbitrary completion orders; estimators are any that leave the random state alone; the negation for unequal thread counts is C47_threads_schedule; empty tables are C47_no_runs, C47_no_estimators."
  },
  {
   "property": "C48",
   "status": "proved",
   "theorems": [
    "Nestcheck.C48",
    "Nestcheck.C48_rmse",
    "Nestcheck.C48_axis",
    "Nestcheck.C48_list",
    "Nestcheck.C48_errors",
    "Nestcheck.C48_nan",
    "Nestcheck.C48_order",
    "Nestcheck.C48_inputs",
    "Nestcheck.C48_labels"
   ],
   "note": "Exact real arithmetic; nan and inf are one value."
  },
  {
   "property": "C49",
   "status": "proved",
   "theorems": [
    "Nestcheck.C49",
    "Nestcheck.C49_laws",
    "Nestcheck.C49_zero"
   ],
   "note": ""
  },
  {
   "property": "C50",
   "status": "proved",
   "theorems": [
    "Nestcheck.C50_formula",
    "Nestcheck.C50_density",
    "Nestcheck.C50_mean",
    "Nestcheck.C50_rescale",
    "Nestcheck.C50_degenerate",
    "Nestcheck.C50_lengths",
    "Nestcheck.C50_equal",
    "Nestcheck.C50_order",
    "Nestcheck.C50_shift"
   ],
   "note": "weights assumed non-negative; real arithmetic"
  },
  {
   "property": "C51",
   "status": "proved",
   "theorems": [
    "Nestcheck.C51_lossless",
    "Nestcheck.C51_rows",
    "Nestcheck.C51_nan",
    "Nestcheck.C51_nan_even"
   ],
   "note": "negation proved for nan values"
  },
  {
   "property": "C52",
   "status": "proved",
   "theorems": [
    "Nestcheck.C52_formula",
    "Nestcheck.C52",
    "Nestcheck.C52_shift",
    "Nestcheck.C52_constant",
    "Nestcheck.C52_simulated"
   ],
   "note": ""
  },
  {
   "property": "C53",
   "status": "proved",
   "theorems": [
    "Nestcheck.C53_bs",
    "Nestcheck.C53_bs_leak",
    "Nestcheck.C53_bs_many",
    "Nestcheck.C53_logx",
    "Nestcheck.C53_thin",
    "Nestcheck.C53_thin_leak",
    "Nestcheck.C53_thin_changes",
    "Nestcheck.C53_four_runs"
   ],
   "note": "drawing libraries assumed not to touch the random state; negation proved for thinning and for exceptional exits"
  },
  {
   "property": "C54",
   "status": "proved",
   "theorems": [
    "Nestcheck.C54_effect",
    "Nestcheck.C54_unchanged",
    "Nestcheck.C54_lines",
    "Nestcheck.C54_returns"
   ],
   "note": "the call does modify the runs: exact description and iff"
  },
  {
   "property": "C55",
   "status": "proved",
   "theorems": [
    "Nestcheck.C55",
    "Nestcheck.C55_finite_start",
    "Nestcheck.C55_labels",
    "Nestcheck.C55_process"
   ],
   "note": "Distinct draws within a thread, start -inf; the finite start is proved to fail. Labels and reprocessing for draws which are all different."
  },
  {
   "property": "C56",
   "status": "proved",
   "theorems": [
    "Nestcheck.C56",
    "Nestcheck.C56_lowest_start"
   ],
   "note": "Distinct logls, positive draws for the dynamic threads, none starting on the lowest sample; exactly one starting there is proved to fail."
  },
  {
   "property": "C57",
   "status": "proved",
   "theorems": [
    "Nestcheck.C57_simulate",
    "Nestcheck.C57_returns",
    "Nestcheck.C57_single"
   ],
   "note": ""
  },
  {
   "property": "C58",
   "status": "proved",
   "theorems": [
    "Nestcheck.C58_threads",
    "Nestcheck.C58_returns"
   ],
   "note": ""
  },
  {
   "property": "C59",
   "status": "proved",
   "theorems": [
    "Nestcheck.C59_returns",
    "Nestcheck.C59_names",
    "Nestcheck.C59_keywords",
    "Nestcheck.C59_titles",
    "Nestcheck.C59_text"
   ],
   "note": "Strings are modelled character by character; the rounding of %f is a parameter (the number of millionths printed)."
  },
  {
   "property": "C60",
   "status": "proved",
   "theorems": [
    "Nestcheck.C60_timing",
    "Nestcheck.C60_no_name",
    "Nestcheck.C60_no_name_warns"
   ],
   "note": ""
  },
  {
   "property": "C61",
   "status": "proved",
   "theorems": [
    "Nestcheck.C61_values",
    "Nestcheck.C61_std",
    "Nestcheck.C61_returns"
   ],
   "note": ""
  },
  {
   "property": "C62",
   "status": "proved",
   "theorems": [
    "Nestcheck.C62_errors",
    "Nestcheck.C62_stats_never_fail",
    "Nestcheck.C62_nlike",
    "Nestcheck.C62_layout"
   ],
   "note": "np.loadtxt is modelled from the table of numbers on."
  },
  {
   "property": "C63",
   "status": "proved",
   "theorems": [
    "Nestcheck.C63_dynamic",
    "Nestcheck.C63_no_counts",
    "Nestcheck.C63_rejects"
   ],
   "note": "C63_no_counts proves the recorded defect."
  },
  {
   "property": "C64",
   "status": "proved",
   "theorems": [
    "Nestcheck.C64_process",
    "Nestcheck.C64_threads",
    "Nestcheck.C64_combine_threads",
    "Nestcheck.C64_combine_runs"
   ],
   "note": ""
  },
  {
   "property": "C65",
   "status": "proved",
   "theorems": [
    "Nestcheck.C13"
   ],
   "note": "Second part of the conclusion of C13 (Spec.IsReport)."
  },
  {
   "property": "C66",
   "status": "proved",
   "theorems": [
    "Nestcheck.C66",
    "Nestcheck.C66_order",
    "Nestcheck.C66_labels"
   ],
   "note": ""
  },
  {
   "property": "C67",
   "status": "proved",
   "theorems": [
    "Nestcheck.C67"
   ],
   "note": "Distance functions are parameters; a row carries the index entry and its values."
  },
  {
   "property": "C68",
   "status": "proved",
   "theorems": [
    "Nestcheck.C68_reproducible",
    "Nestcheck.C68_schedule",
    "Nestcheck.C68_content",
    "Nestcheck.C68_summary"
   ],
   "note": "C68_summary is the end-to-end statement with the default options; C68_schedule covers every option. The uncertainties of the implementation errors come from a simulation with a fixed seed and are left as a function of the statistic."
  },
  {
   "property": "C69",
   "status": "proved",
   "theorems": [
    "Nestcheck.C69_areas",
    "Nestcheck.C69_figure",
    "Nestcheck.C69_returns"
   ],
   "note": ""
  },
  {
   "property": "C70",
   "status": "proved",
   "theorems": [
    "Nestcheck.C70_rows",
    "Nestcheck.C70_means",
    "Nestcheck.C70_returns",
    "Nestcheck.C70_bs_returns",
    "Nestcheck.C70_logx_returns"
   ],
   "note": ""
  },
  {
   "property": "C71",
   "status": "proved",
   "theorems": [
    "Nestcheck.C71_round_trip",
    "Nestcheck.C71_nlive",
    "Nestcheck.C71_file"
   ],
   "note": "fmt is an arbitrary function keeping distinct logls (and logl_init) distinct and in order."
  },
  {
   "property": "C72",
   "status": "proved",
   "theorems": [
    "Nestcheck.C72_posteriors",
    "Nestcheck.C72_equals",
    "Nestcheck.C72_distribution"
   ],
   "note": "Distribution: exact Lebesgue measure of the draws selecting any given set of samples."
  },
  {
   "property": "C73",
   "status": "proved",
   "theorems": [
    "Nestcheck.C73_stats",
    "Nestcheck.C73_returns",
    "Nestcheck.C73_rejects"
   ],
   "note": ""
  },
  {
   "property": "C74",
   "status": "proved",
   "theorems": [
    "Nestcheck.C74_values",
    "Nestcheck.C74_inputs_kept",
    "Nestcheck.C74_shared_fails",
    "Nestcheck.C74_shared_assertion"
   ],
   "note": "Model/Alias: thread_labels arrays as objects in memory."
  },
  {
   "property": "C75",
   "status": "proved",
   "theorems": [
    "Nestcheck.C75",
    "Nestcheck.C75_collision",
    "Nestcheck.C75_nan",
    "Nestcheck.rint_spec",
    "Nestcheck.paperName_shown"
   ],
   "note": "Exact real arithmetic; at least two methods; column names distinct."
  },
  {
   "property": "C76",
   "status": "proved",
   "theorems": [
    "Nestcheck.C76",
    "Nestcheck.C76_inside",
    "Nestcheck.C76_heights",
    "Nestcheck.C76_default",
    "Nestcheck.C76_fails"
   ],
   "note": "Exact real arithmetic; scipy's gaussian_kde by its documented formula."
  },
  {
   "property": "C77",
   "status": "proved",
   "theorems": [
    "Nestcheck.C77",
    "Nestcheck.C77_law",
    "Nestcheck.C77_evidence"
   ],
   "note": "independence and uniformity of the draws of np.random.random are a hypothesis about the random world; an example with a concrete generator is given"
  },
  {
   "property": "C78",
   "status": "proved",
   "theorems": [
    "Nestcheck.C78",
    "Nestcheck.C78_count"
   ],
   "note": "independence and uniformity of the draws are a hypothesis about the random world; an example with a concrete generator is given"
  },
  {
   "property": "C79",
   "status": "proved",
   "theorems": [
    "Nestcheck.C79_logx",
    "Nestcheck.C79_weights",
    "Nestcheck.C79_logz",
    "Nestcheck.C79_minus_inf",
    "Nestcheck.C79_all_minus_inf",
    "Nestcheck.C79_zero_draw",
    "Nestcheck.C79_exact",
    "Nestcheck.C79_exact_weights",
    "Nestcheck.C79_exact_logz"
   ],
   "note": "Rounded arithmetic is any instance of FloatArith; two instances and the agreement of the exact one with the model of the other properties are in Props/RoundingExamples."
  },
  {
   "property": "C80",
   "status": "proved",
   "theorems": [
    "Nestcheck.C80_complete",
    "Nestcheck.C80_progress",
    "Nestcheck.C80_truncated",
    "Nestcheck.C80_one_writer",
    "Nestcheck.C80_same_value",
    "Nestcheck.C80_small",
    "Nestcheck.C80_own",
    "Nestcheck.C80_holes",
    "Nestcheck.C80_holes_killed",
    "Nestcheck.C80_mixture"
   ],
   "note": "The conditions are needed: C80_holes, C80_holes_killed, C80_mixture."
  },
  {
   "property": "C81",
   "status": "proved",
   "theorems": [
    "Nestcheck.C81_ks",
    "Nestcheck.C81_emd",
    "Nestcheck.C81_emd_dual",
    "Nestcheck.C81_energy",
    "Nestcheck.C81_zero",
    "Nestcheck.C81_symmetric",
    "Nestcheck.C81_triangle",
    "Nestcheck.C81_order",
    "Nestcheck.C81_ks_invariant",
    "Nestcheck.C81_scale",
    "Nestcheck.C81_returns"
   ],
   "note": "The p-value of ks_2samp is a parameter. The formulas are scipy's for unweighted samples, in exact arithmetic."
  },
  {
   "property": "C82",
   "status": "proved",
   "theorems": [
    "Nestcheck.C82_process",
    "Nestcheck.C82_estimates",
    "Nestcheck.C82_simulate",
    "Nestcheck.C82_threads",
    "Nestcheck.C82_bootstrap",
    "Nestcheck.C82_end_to_end",
    "Nestcheck.C82_multinest"
   ],
   "note": "Composition of C01, C03, C11, C17, C29-C36, C38, C39, C57, C58 and C61; the restriction to one heir per contour is needed for the bootstrap only (C37)."
  },
  {
   "property": "C83",
   "status": "proved",
   "theorems": [
    "Nestcheck.C83_shift",
    "Nestcheck.C83_logz",
    "Nestcheck.C83_param_mean",
    "Nestcheck.C83_squared",
    "Nestcheck.C83_r_mean",
    "Nestcheck.C83_quantile_weights",
    "Nestcheck.C83_quantile_values",
    "Nestcheck.C83_param_cred",
    "Nestcheck.C83_r_cred",
    "Nestcheck.C83_jump",
    "Nestcheck.C83_written"
   ],
   "note": "C83_jump shows that the condition on the order of the values cannot be dropped for quantiles. The file statement covers logz and param_mean."
  },
  {
   "property": "C84",
   "status": "proved",
   "theorems": [
    "Nestcheck.C84_logw",
    "Nestcheck.C84_logz",
    "Nestcheck.C84_param_mean",
    "Nestcheck.C84_exact",
    "Nestcheck.C84_binary",
    "Nestcheck.C84_binary64_logz",
    "Nestcheck.C84_binary64_param_mean"
   ],
   "note": "Standard model of rounded arithmetic (Spec.Accurate); C84_binary shows that IEEE 754 binary formats with rounding to nearest even meet it (exp and log correctly rounded). Expected prior volumes only (simulate=False)."
  },
  {
   "property": "C85",
   "status": "proved",
   "theorems": [
    "Nestcheck.C85_array",
    "Nestcheck.C85_round_trip",
    "Nestcheck.C85_injective",
    "Nestcheck.C85_live_threads",
    "Nestcheck.C85_processed"
   ],
   "note": "The exact condition of the round trip is for thread_min_max with at most one thread starting exactly on the lowest sample; otherwise the code replaces the live counts by an approximation."
  },
  {
   "property": "C86",
   "status": "proved",
   "theorems": [
    "Nestcheck.C86_split",
    "Nestcheck.C86_combine_threads",
    "Nestcheck.C86_combine_runs",
    "Nestcheck.C86_process",
    "Nestcheck.C86_resample",
    "Nestcheck.C86_evidence",
    "Nestcheck.C86_mean",
    "Nestcheck.C86_squared",
    "Nestcheck.C86_r_mean",
    "Nestcheck.C86_cred",
    "Nestcheck.C86_r_cred",
    "Nestcheck.C86_estimators",
    "Nestcheck.C86_values",
    "Nestcheck.C86_std",
    "Nestcheck.C86_ci",
    "Nestcheck.C86_simulate",
    "Nestcheck.C86_reflection",
    "Nestcheck.C86_negative_fails"
   ],
   "note": "Naturality of every stage in the parameters, and affine equivariance of estimates and error bars; a > 0 for quantiles, with the negation for a < 0"
  },
  {
   "property": "C87",
   "status": "proved",
   "theorems": [
    "Nestcheck.C87_consistent",
    "Nestcheck.C87_replay",
    "Nestcheck.C87_lineages",
    "Nestcheck.C87_interrupted",
    "Nestcheck.C87_standard",
    "Nestcheck.C87_multinest",
    "Nestcheck.C87_realised"
   ],
   "note": "The sampler is specified as a transition system in Spec/Sampler.lean; contours are strict, i.e. loglikelihoods of an execution are distinct (plateaus are C07). C87_realised is the converse."
  },
  {
   "property": "C88",
   "status": "proved",
   "theorems": [
    "Nestcheck.C88_threads",
    "Nestcheck.C88_merge",
    "Nestcheck.C88_lowest_birth_fails"
   ],
   "note": "Threads as chains of heirs; combining processed runs is processing the concatenated arrays, with the condition on the lowest contour shown to be necessary."
  },
  {
   "property": "C89",
   "status": "proved",
   "theorems": [
    "Nestcheck.C89_process",
    "Nestcheck.C89_dead_birth",
    "Nestcheck.C89_split",
    "Nestcheck.C89_combine_runs",
    "Nestcheck.C89_combine_threads",
    "Nestcheck.C89_resample",
    "Nestcheck.C89_nearest_fails",
    "Nestcheck.C89_stable",
    "Nestcheck.C89_affine",
    "Nestcheck.C89_shift",
    "Nestcheck.C89_estimators",
    "Nestcheck.C89_values",
    "Nestcheck.C89_std",
    "Nestcheck.C89_ci",
    "Nestcheck.C89_simulate"
   ],
   "note": "Props/Monotone.lean and Props/MonotoneValues.lean: processing, dividing, combining and resampling commute with strictly increasing functions of the loglikelihood; a constant factor of the likelihood only moves logz and scales evidence."
  },
  {
   "property": "C90",
   "status": "proved",
   "theorems": [
    "Nestcheck.C90_unknown_process",
    "Nestcheck.C90_unknown_polychord",
    "Nestcheck.C90_unknown_combine",
    "Nestcheck.C90_unknown_bootstrap",
    "Nestcheck.C90_unknown_std",
    "Nestcheck.C90_unknown_ci",
    "Nestcheck.C90_unknown_apply",
    "Nestcheck.C90_unknown_batch",
    "Nestcheck.C90_unknown_error_values",
    "Nestcheck.C90_unknown_estimator_values",
    "Nestcheck.C90_unknown_others",
    "Nestcheck.C90_order",
    "Nestcheck.C90_dict_process",
    "Nestcheck.C90_dict_bootstrap",
    "Nestcheck.C90_dict_apply",
    "Nestcheck.C90_dict_batch",
    "Nestcheck.C90_dict_tables",
    "Nestcheck.C90_process",
    "Nestcheck.C90_combine",
    "Nestcheck.C90_polychord",
    "Nestcheck.C90_bootstrap",
    "Nestcheck.C90_required",
    "Nestcheck.C90_ci",
    "Nestcheck.C90_summary",
    "Nestcheck.C90_error_values",
    "Nestcheck.C90_apply",
    "Nestcheck.C90_batch",
    "Nestcheck.C90_func_unknown",
    "Nestcheck.C90_no_files",
    "Nestcheck.C90_func_kwargs_after",
    "Nestcheck.C90_cached",
    "Nestcheck.C90_uncached",
    "Nestcheck.C90_summary_uncached",
    "Nestcheck.C90_truth",
    "Nestcheck.C90_others",
    "Nestcheck.C90_dummy",
    "Nestcheck.C90_error_summary",
    "Nestcheck.C90_unknown_write",
    "Nestcheck.C90_write",
    "Nestcheck.C90_multi",
    "Nestcheck.C90_unknown_multi",
    "Nestcheck.C90_unknown_multi_level",
    "Nestcheck.C90_random_seed_none"
   ],
   "note": "Keyword arguments as dictionaries; all process functions are parameters."
  },
  {
   "property": "C91",
   "status": "proved",
   "theorems": [
    "Nestcheck.C91_run",
    "Nestcheck.C91_law",
    "Nestcheck.C91_moments"
   ],
   "note": "Ideal sampler specified by the volumes enclosed by its points; executions without ties exist with probability one."
  },
  {
   "property": "C92",
   "status": "proved",
   "theorems": [
    "Nestcheck.C92_uniform",
    "Nestcheck.C92_run",
    "Nestcheck.C92_logx",
    "Nestcheck.C92_mean",
    "Nestcheck.exAdaptive",
    "Nestcheck.C92_stopped"
   ],
   "note": "for every measurable allocation and stopping rule; C92_uniform for a fixed total number of draws, C92_stopped for a random one"
  },
  {
   "property": "C93",
   "status": "proved",
   "theorems": [
    "Nestcheck.C93_independent",
    "Nestcheck.C93_law",
    "Nestcheck.C93_combined",
    "Nestcheck.C93_combined_law"
   ],
   "note": "Ideal samplers as in C91/C92; C93_combined gives the combined run, C93_combined_law the conditional law of its volumes, C93_independent and C93_law the same for one sampler whose rule uses only the order of removal."
  },
  {
   "property": "C94",
   "status": "proved",
   "theorems": [
    "Nestcheck.C94_integral",
    "Nestcheck.C94_evidence",
    "Nestcheck.C94_logz",
    "Nestcheck.C94_static"
   ],
   "note": "Convergence of evidence (in mean) and logz (in probability) for runs of ideal samplers with fixed schedules of live points, and of weighted sums for bounded, almost everywhere continuous functions of the enclosed volume."
  },
  {
   "property": "C95",
   "status": "proved",
   "theorems": [
    "Nestcheck.C95_integral",
    "Nestcheck.C95_evidence",
    "Nestcheck.C95_logz",
    "Nestcheck.C95_combined"
   ],
   "note": "Convergence of evidence (in mean) and logz (in probability) for adaptive ideal samplers with any measurable rule and stopping criterion, and for combined runs of independent samplers."
  },
  {
   "property": "C96",
   "status": "proved",
   "theorems": [
    "Nestcheck.C96_run",
    "Nestcheck.C96_average",
    "Nestcheck.C96_param_mean",
    "Nestcheck.C96_squared",
    "Nestcheck.C96_r_mean"
   ],
   "note": "The samplers are ideal, i.e. their points are exact draws from the prior inside the contour; the points are allocated by the volumes, not by the spots. Deterministic weights (simulate=False)."
  },
  {
   "property": "C97",
   "status": "proved",
   "theorems": [
    "Nestcheck.C97_weights",
    "Nestcheck.C97_param_cred",
    "Nestcheck.C97_r_cred"
   ],
   "note": "As C96."
  },
  {
   "property": "C98",
   "status": "proved",
   "theorems": [
    "Nestcheck.C98_run",
    "Nestcheck.C98_evidence",
    "Nestcheck.C98_logz"
   ],
   "note": "For every run, and in the limit for adaptive ideal samplers; the generator's stream is independent of the sampler and does not depend on how many numbers are asked for at once."
  },
  {
   "property": "C99",
   "status": "proved",
   "theorems": [
    "Nestcheck.C99_average",
    "Nestcheck.C99_param_mean",
    "Nestcheck.C99_squared",
    "Nestcheck.C99_r_mean",
    "Nestcheck.C99_weights",
    "Nestcheck.C99_param_cred",
    "Nestcheck.C99_r_cred"
   ],
   "note": "As C96 and C97, with simulated prior volumes."
  },
  {
   "property": "C100",
   "status": "proved",
   "theorems": [
    "Nestcheck.C100_param_mean",
    "Nestcheck.C100_minus_inf",
    "Nestcheck.C100_length"
   ],
   "note": "A nan anywhere is an error of the model. param_mean only; bounds are integers since these are exact in the arithmetics of C79."
  },
  {
   "property": "C101",
   "status": "proved",
   "theorems": [
    "Nestcheck.C101_run"
   ],
   "note": "The bound on the mean deviation for every run with a constant number of live points."
  },
  {
   "property": "C102",
   "status": "proved",
   "theorems": [
    "Nestcheck.C102_evidence",
    "Nestcheck.C102_logz",
    "Nestcheck.C102_deviation"
   ],
   "note": "ideal samplers with a constant number of live points"
  },
  {
   "property": "C103",
   "status": "proved",
   "theorems": [
    "Nestcheck.C103_values",
    "Nestcheck.C103_std",
    "Nestcheck.C103_ci"
   ],
   "note": "In exact real arithmetic, for logz."
  },
  {
   "property": "C104",
   "status": "proved",
   "theorems": [
    "Nestcheck.C104_unknown_nlive",
    "Nestcheck.C104_unknown_bs",
    "Nestcheck.C104_unknown_dists",
    "Nestcheck.C104_unknown_logx",
    "Nestcheck.C104_unknown_kde",
    "Nestcheck.C104_nlive",
    "Nestcheck.C104_bs",
    "Nestcheck.C104_dists",
    "Nestcheck.C104_logx",
    "Nestcheck.C104_kde",
    "Nestcheck.C104_columns",
    "Nestcheck.C104_order",
    "Nestcheck.C104_dict",
    "Nestcheck.C104_rng",
    "Nestcheck.C104_rng_logx",
    "Nestcheck.C104_four_runs"
   ],
   "note": "Values of options are those of PlotVal; options of appearance are accepted without effect."
  },
  {
   "property": "C105",
   "status": "proved",
   "theorems": [
    "Nestcheck.C105_logz",
    "Nestcheck.C105_evidence",
    "Nestcheck.C105_param_mean",
    "Nestcheck.C105_squared",
    "Nestcheck.C105_r_mean",
    "Nestcheck.C105_param_cred",
    "Nestcheck.C105_r_cred"
   ],
   "note": ""
  },
  {
   "property": "C106",
   "status": "proved",
   "theorems": [
    "Nestcheck.C106_logz",
    "Nestcheck.C106_evidence",
    "Nestcheck.C106_param_mean",
    "Nestcheck.C106_squared",
    "Nestcheck.C106_r_mean",
    "Nestcheck.C106_param_cred",
    "Nestcheck.C106_r_cred",
    "Nestcheck.C106_static"
   ],
   "note": "logz, evidence, posterior means and quantiles; static samplers without assumptions about replications"
  },
  {
   "property": "C107",
   "status": "proved",
   "theorems": [
    "Nestcheck.C107",
    "Nestcheck.C107_index",
    "Nestcheck.C107_levels",
    "Nestcheck.C107_errors",
    "Nestcheck.C107_refines"
   ],
   "note": "the level values are strings; the hypotheses name the excluded level names"
  },
  {
   "property": "C108",
   "status": "proved",
   "theorems": [
    "Nestcheck.C108_exists",
    "Nestcheck.C108_run",
    "Nestcheck.C108_logz",
    "Nestcheck.C108_param_mean",
    "Nestcheck.C108_squared",
    "Nestcheck.C108_r_mean",
    "Nestcheck.C108_param_cred",
    "Nestcheck.C108_r_cred",
    "Nestcheck.C108_simulated_logz",
    "Nestcheck.C108_simulated_param_mean",
    "Nestcheck.C108_simulated_squared",
    "Nestcheck.C108_simulated_r_mean",
    "Nestcheck.C108_simulated_param_cred",
    "Nestcheck.C108_simulated_r_cred"
   ],
   "note": ""
  },
  {
   "property": "C109",
   "status": "proved",
   "theorems": [
    "Nestcheck.C109_combine",
    "Nestcheck.C109_threads",
    "Nestcheck.C109_dynesty",
    "Nestcheck.C109_multinest",
    "Nestcheck.C109_dummy",
    "Nestcheck.C109_empty",
    "Nestcheck.C109_lengths",
    "Nestcheck.C109_gain",
    "Nestcheck.C109_gain_names",
    "Nestcheck.C109_nlive",
    "Nestcheck.C109_figures",
    "Nestcheck.C109_kde"
   ],
   "note": "Lengths which numpy would broadcast are left out."
  },
  {
   "property": "C110",
   "status": "proved",
   "theorems": [
    "Nestcheck.C110_negative",
    "Nestcheck.C110_nonneg",
    "Nestcheck.C110_outside"
   ],
   "note": ""
  },
  {
   "property": "C111",
   "status": "proved",
   "theorems": [
    "Nestcheck.C111_evidence",
    "Nestcheck.C111_squared",
    "Nestcheck.C111_r_mean",
    "Nestcheck.C111_exact",
    "Nestcheck.C111_binary64_evidence",
    "Nestcheck.C111_binary64_squared",
    "Nestcheck.C111_binary64_r_mean"
   ],
   "note": "standard model of rounded arithmetic; bounds for 64 bit floats; expected prior volumes (simulated ones: C112)"
  },
  {
   "property": "C112",
   "status": "proved",
   "theorems": [
    "Nestcheck.C112_logw",
    "Nestcheck.C112_logz",
    "Nestcheck.C112_evidence",
    "Nestcheck.C112_param_mean",
    "Nestcheck.C112_squared",
    "Nestcheck.C112_r_mean",
    "Nestcheck.C112_exact",
    "Nestcheck.C112_binary64_logz",
    "Nestcheck.C112_binary64_param_mean"
   ],
   "note": "Standard model of rounding; the random numbers are those of the exact calculation; zero random numbers are excluded."
  },
  {
   "property": "C113",
   "status": "proved",
   "theorems": [
    "Nestcheck.C113_check_logl",
    "Nestcheck.C113_check_threads",
    "Nestcheck.C113_check_numbers",
    "Nestcheck.C113_process_logl",
    "Nestcheck.C113_process_birth",
    "Nestcheck.C113_process_numbers",
    "Nestcheck.C113_polychord",
    "Nestcheck.C113_polychord_numbers",
    "Nestcheck.C113_multinest",
    "Nestcheck.C113_multinest_logl",
    "Nestcheck.C113_multinest_numbers",
    "Nestcheck.C113_dict",
    "Nestcheck.C113_dict_numbers",
    "Nestcheck.C113_dynesty",
    "Nestcheck.C113_dynesty_static",
    "Nestcheck.C113_dynesty_numbers"
   ],
   "note": "Arrays of numbers and nan; refusal of nan and refinement of the models for numbers"
  },
  {
   "property": "C114",
   "status": "proved",
   "theorems": [
    "Nestcheck.C114_numbers",
    "Nestcheck.C114_other_columns",
    "Nestcheck.C114_mean",
    "Nestcheck.C114_r_mean",
    "Nestcheck.C114_quantile_nan",
    "Nestcheck.C114_quantile_number",
    "Nestcheck.C114_quantile_value",
    "Nestcheck.C114_order_exists",
    "Nestcheck.C114_param_cred"
   ],
   "note": "Exact real arithmetic; r_cred through weighted_quantile"
  },
  {
   "property": "C115",
   "status": "proved",
   "theorems": [
    "Nestcheck.C115_returns",
    "Nestcheck.C115_fails",
    "Nestcheck.C115_exceptions",
    "Nestcheck.C115_empty",
    "Nestcheck.C115_causes",
    "Nestcheck.C115_strict",
    "Nestcheck.C115_live",
    "Nestcheck.C115_estimable",
    "Nestcheck.C115_estimates",
    "Nestcheck.C115_proper",
    "Nestcheck.C115_bootstrap",
    "Nestcheck.C115_no_live_points"
   ],
   "note": "For the model of C01-C10; nan is treated in C113."
  },
  {
   "property": "C116",
   "status": "proved",
   "theorems": [
    "Nestcheck.C116_default",
    "Nestcheck.C116_untouched",
    "Nestcheck.C116_after_fault",
    "Nestcheck.C116_round_trip",
    "Nestcheck.C116_keeps",
    "Nestcheck.C116_lost"
   ],
   "note": "With the disk of C43-C45."
  }
 ]
}