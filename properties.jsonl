{"id": "C01", "title": "Live point counts read from a dead-birth array are exact", "statement": "When a dead-birth array has distinct loglikelihoods, and every birth contour is either the sentinel shared with the lowest point (strictly below every loglikelihood) or the loglikelihood of some strictly lower point, process_samples_array succeeds and nlive_array[i] equals the number of samples born strictly below logl[i] and dying at or above it.", "quantifier": "every array of samples of any size with distinct logls and consistent births, static or dynamic, in any row order, and every argsort implementation", "why_tests_cant": "A test compares a handful of dummy runs with themselves; the count must be right for every birth/death pattern, and it drives every later weight.", "anchors": ["nestcheck/data_processing.py:process_samples_array", "nestcheck/data_processing.py:birth_inds_given_contours", "nestcheck/data_processing.py:threads_given_birth_inds"]}
{"id": "C02", "title": "Thread decomposition is a partition into birth-linked chains", "statement": "For those inputs the returned thread_labels use exactly the integers 0..n_threads-1, every sample carries one label, consecutive samples of a thread are linked (the later one was born on the contour of the earlier one), and thread_min_max[k] is (birth contour of the first sample of thread k, or -inf if it was sampled from the whole prior; logl of its last sample). A thread never stops at a sample on whose contour another sample was born. Threads are numbered by the contour they start on (the whole prior first), those starting on one contour by the logl of their first samples.", "quantifier": "every dead-birth array with distinct logls and consistent births", "why_tests_cant": "The tree of births has unboundedly many shapes; tests cover one or two.", "anchors": ["nestcheck/data_processing.py:process_samples_array", "nestcheck/data_processing.py:threads_given_birth_inds"]}
{"id": "C03", "title": "Processed runs are well formed and lose no samples", "statement": "For those inputs the returned run passes check_ns_run, its logl is ascending, and its (logl, theta) rows are exactly the rows of the input array, each occurring as often as in the input.", "quantifier": "every dead-birth array with distinct logls and consistent births", "why_tests_cant": "Loss or duplication of a row only shows on particular orders.", "anchors": ["nestcheck/data_processing.py:process_samples_array", "nestcheck/ns_run_utils.py:check_ns_run"]}
{"id": "C04", "title": "Row order of the input file is irrelevant", "statement": "Permuting the rows of a dead-birth array with distinct loglikelihoods gives the identical run (or the identical exception).", "quantifier": "every pair of permuted arrays with distinct logls", "why_tests_cant": "n! orders.", "anchors": ["nestcheck/data_processing.py:process_samples_array"]}
{"id": "C05", "title": "Birth indexes point to an earlier death on the right contour", "statement": "When birth_inds_given_contours returns without warning, each sample is either given -1 (its birth contour equals that of the first sample) or the index of a sample whose logl equals its birth contour; the index is smaller than its own unless that sample is the only one on its own birth contour (born and dying there); and on contours holding several deaths no death index is given to two births. This includes arrays with duplicate loglikelihoods (plateaus).", "quantifier": "every pair of equal-length contour and logl arrays (duplicates allowed), every random state", "why_tests_cant": "Plateau handling is randomised; a seeded test sees one draw.", "anchors": ["nestcheck/data_processing.py:birth_inds_given_contours", "nestcheck/data_processing.py:sample_less_than_condition"]}
{"id": "C06", "title": "sample_less_than_condition fails only when no allocation exists", "statement": "For an ascending condition array, sample_less_than_condition returns distinct positions of choices with output[i] < condition[i] for every i, whatever the random draws, and raises ValueError exactly when no such allocation exists; so the greedy random draw never paints itself into a corner.", "quantifier": "all choices, all ascending conditions, all random draws", "why_tests_cant": "Existence of an allocation is a Hall-type condition; random tests only sample draws.", "anchors": ["nestcheck/data_processing.py:sample_less_than_condition"]}
{"id": "C07", "title": "No warning means an exact live count, plateaus included", "statement": "If process_samples_array returns without issuing a warning, then there is an assignment of birth steps (-1 for samples from the whole prior, otherwise an earlier sample on the birth contour) such that nlive_array[i] is the number of samples j whose birth step is before i and which die at or after i.", "quantifier": "every samples array, duplicate logls allowed, every random state", "why_tests_cant": "Warnings are the only signal users get that the decomposition is approximate.", "anchors": ["nestcheck/data_processing.py:process_samples_array", "nestcheck/data_processing.py:threads_given_birth_inds"]}
{"id": "C08", "title": "threads_given_birth_inds terminates and labels contiguously", "statement": "threads_given_birth_inds stops on every integer array; it raises AssertionError exactly if the smallest birth index is itself a sample which is reached from a thread start (never if some index is negative); when it returns, all samples are labelled and the set of labels is exactly 0..n-1 for n the number of thread starts; every label assigned by following births is kept when left-over samples are assigned randomly. Thread starts are numbered by birth index, those with the same birth index by position.", "quantifier": "every list of integers (valid or not), every random state", "why_tests_cant": "The while loop follows arbitrary pointers: termination on malformed input cannot be established by running it.", "anchors": ["nestcheck/data_processing.py:threads_given_birth_inds"]}
{"id": "C09", "title": "Inconsistent births are rejected", "statement": "birth_inds_given_contours raises AssertionError if the logls are not ascending, if some birth contour exceeds its own logl, or (AssertionError, or ValueError if a plateau which cannot be decomposed is met first) if a birth contour is neither the initial one nor the logl of any sample; with dup_assert=True it raises AssertionError exactly when logls are not strictly ascending or one of the other checks fails, and returns otherwise.", "quantifier": "all arrays", "why_tests_cant": "Rejection must hold for every malformed array.", "anchors": ["nestcheck/data_processing.py:birth_inds_given_contours", "nestcheck/ns_run_utils.py:check_ns_run_logls"]}
{"id": "C10", "title": "Processing leaves the global random state unchanged", "statement": "process_samples_array, birth_inds_given_contours, threads_given_birth_inds and combine_threads whenever they return, leave the global numpy random state equal to the one they were called with; and their results, exceptions and warnings do not depend on it. (On exceptional exits the state is not restored: a recorded defect.)", "quantifier": "all inputs, all random states", "why_tests_cant": "A leak on one exception path is only visible after that path.", "anchors": ["nestcheck/data_processing.py:birth_inds_given_contours", "nestcheck/data_processing.py:threads_given_birth_inds", "nestcheck/ns_run_utils.py:combine_threads"]}
{"id": "C11", "title": "MultiNest processing gives a static run or an AssertionError", "statement": "process_multinest_run returns only if every final live point lies above every dead point and every thread starts from the whole prior; then the result is that of process_samples_array on dead rows followed by live rows without their surplus columns. For consistent births it returns exactly if live points lie above dead points and no contour has two samples born on it, and raises AssertionError otherwise. If every dead point was replaced by exactly one new point, nlive_array is the number of live points at every dead point and then counts down to 1.", "quantifier": "all dead and live arrays with at least two rows; consistent births for the last two sentences", "why_tests_cant": "Tests use two live points of one dummy run.", "anchors": ["nestcheck/data_processing.py:process_multinest_run"]}
{"id": "C12", "title": "Static dynesty live counts are exact", "statement": "For a static dynesty result (nlive attribute, ids 0..nlive-1 each present among the last nlive samples, ascending logl) process_dynesty_run returns a run that passes check_ns_run with nlive_array[i] = number of threads whose last sample is at or after i, all threads starting at -inf. If an id has no sample among the last nlive, or the number of ids is not nlive, it raises AssertionError.", "quantifier": "all static dynesty results", "why_tests_cant": "The existing test has a single thread.", "anchors": ["nestcheck/data_processing.py:process_dynesty_run"]}
{"id": "C13", "title": "batch_process_data is order-correct for every completion schedule", "statement": "For every order in which the worker processes complete, batch_process_data returns the successfully processed runs in the order of file_roots, one per root, leaving out exactly the roots whose processing raised one of errors_to_handle; an error outside errors_to_handle propagates.", "quantifier": "all lists of distinct file roots, all processing functions that tag runs with their root, all completion orders", "why_tests_cant": "Completion order is chosen by the OS scheduler.", "anchors": ["nestcheck/data_processing.py:batch_process_data", "nestcheck/data_processing.py:process_error_helper", "nestcheck/parallel_utils.py:parallel_apply"]}
{"id": "C14", "title": ".stats files round-trip", "statement": "process_polychord_stats applied to a file written by write_stats_file returns the dictionary that write_stats_file returned if and only if lists which belong together have the same length, ncluster is the number of cluster evidences, and none of nlike, avnlike and avnlikeslice is a list with one item; in every case it returns that dictionary with the lists cut to the shorter one, ncluster corrected and lists with one item replaced by the item. write_stats_file touches no other file, keeps the values it is given, uses the documented defaults for the others, and raises AssertionError for unknown or missing mandatory keys.", "quantifier": "all dictionaries with integer counts, any number of clusters and parameters, every number formatter whose output is a non-empty whitespace-free token that parses back", "why_tests_cant": "Line offsets depend on the number of clusters and parameters.", "anchors": ["nestcheck/write_polychord_output.py:write_stats_file", "nestcheck/data_processing.py:process_polychord_stats"]}
{"id": "C15", "title": "Dead-birth arrays round-trip", "statement": "If samples is a dead-birth array with distinct logls and consistent births whose sentinel is logl_init, then run_dead_birth_array(process_samples_array(samples), logl_init) is samples sorted by logl.", "quantifier": "every such array", "why_tests_cant": "The composition must be the identity on every birth tree.", "anchors": ["nestcheck/write_polychord_output.py:run_dead_birth_array", "nestcheck/data_processing.py:process_samples_array"]}
{"id": "C16", "title": "Writing and reading back a run reproduces it", "statement": "For every run produced by process_samples_array from consistent distinct-logl input, writing its dead-birth array and processing it again returns the same logl, theta, nlive_array, thread_labels and thread_min_max; for any run passing check_ns_run with distinct logls whose threads start strictly below their first sample, from the whole prior or on sample contours, it succeeds and reproduces logl and theta, and nlive_array is the number of threads of the run present at each sample (so is reproduced if it was that). If all threads start from the whole prior and are numbered in the order of their first samples, thread_labels and thread_min_max are reproduced too. The division into threads, and another numbering of them, are not reproduced in general.", "quantifier": "every valid run with distinct logls below which logl_init lies", "why_tests_cant": "Relabelling conventions and thread starts depend on the whole tree.", "anchors": ["nestcheck/write_polychord_output.py:run_dead_birth_array", "nestcheck/data_processing.py:process_samples_array", "nestcheck/ns_run_utils.py:get_run_threads"]}
{"id": "C17", "title": "get_run_threads partitions the run", "statement": "For a run passing check_ns_run, get_run_threads returns one single-live-point run per thread, in label order; each has nlive_array all ones, carries only its own label and thread_min_max row, has ascending logl, and the samples of the threads together are exactly the samples of the run.", "quantifier": "every run passing check_ns_run whose threads do not start above their first sample", "why_tests_cant": "All label interleavings.", "anchors": ["nestcheck/ns_run_utils.py:get_run_threads", "nestcheck/ns_run_utils.py:array_given_run", "nestcheck/ns_run_utils.py:dict_given_run_array"]}
{"id": "C18", "title": "Splitting then recombining is the identity", "statement": "combine_threads(get_run_threads(run)) equals run in every member for every valid run with distinct logls whose nlive_array is the number of threads present, whose threads start strictly below their first sample, and each of whose threads was born from the whole prior or on the contour of a sample other than the lowest. (With a thread born exactly on the lowest sample it raises AssertionError: a recorded defect.)", "quantifier": "every such run, standard or dynamic", "why_tests_cant": "Recombination recomputes live counts from starts and ends of all threads.", "anchors": ["nestcheck/ns_run_utils.py:combine_threads", "nestcheck/ns_run_utils.py:get_run_threads"]}
{"id": "C19", "title": "Combined runs have summed live points", "statement": "combine_ns_runs of two or more valid runs has, at each of its samples, the sum over input runs of that run's live points at that likelihood (its nlive at its next sample not yet passed, zero after its last).", "quantifier": "all lists of valid runs without repeated logls, with positive live counts ending in 1, in which the first live count of each run is the number of its threads starting at or below the lowest sample of the combination and at most one thread starts exactly there; every sort", "why_tests_cant": "All interleavings of the samples of several runs.", "anchors": ["nestcheck/ns_run_utils.py:combine_ns_runs", "nestcheck/ns_run_utils.py:dict_given_run_array", "nestcheck/ns_run_utils.py:array_given_run"]}
{"id": "C20", "title": "Combining runs is order independent", "statement": "Samples and live counts of combine_ns_runs do not depend on the order of the runs in the list when logls are distinct, and combining any groups first and then the results gives the same run as combining all at once.", "quantifier": "all lists of valid runs with distinct logls, all permutations", "why_tests_cant": "Permutations and groupings.", "anchors": ["nestcheck/ns_run_utils.py:combine_ns_runs"]}
{"id": "C21", "title": "combine_ns_runs adds output counters", "statement": "The combined output has nlike (ndead) equal to the sum over runs of the value, summing iterables first, when every run has the key, and has no such key otherwise; no other output key survives; a single run is returned unchanged; an empty list raises ValueError.", "quantifier": "all lists of runs", "why_tests_cant": "Key presence patterns.", "anchors": ["nestcheck/ns_run_utils.py:combine_ns_runs"]}
{"id": "C22", "title": "Recombining static threads never fails", "statement": "If every thread starts from the whole prior, combine_threads succeeds for any non-empty list of single-live-point threads, repeated ones included, the samples are the union, and nlive_array[i] is the number of threads whose last sample has not been passed before position i: at least #{threads ending above logl[i]}, at most #{threads ending at or above logl[i]}, at least 1, and 1 at the last sample. The thread members of the result are either consistent or both None.", "quantifier": "all non-empty lists of non-empty strictly ascending static threads, every sort tie-break", "why_tests_cant": "Bootstrap draws are random; failure would surface only for some draws.", "anchors": ["nestcheck/ns_run_utils.py:combine_threads", "nestcheck/ns_run_utils.py:dict_given_run_array"]}
{"id": "C23", "title": "Recombining dynamic threads succeeds whenever the birth points are present", "statement": "For threads with distinct sample logls which start strictly below their first sample, either from the whole prior or on the contour of a sample other than the lowest of all, combine_threads succeeds and nlive_array[i] = #{threads: start < logl[i] <= end}. If exactly one of them starts on the lowest sample combine_threads raises AssertionError (a recorded defect).", "quantifier": "all lists of threads with distinct logls", "why_tests_cant": "The update of the change-in-nlive column is spread over three functions.", "anchors": ["nestcheck/ns_run_utils.py:combine_threads"]}
{"id": "C24", "title": "check_ns_run accepts exactly the documented format", "statement": "check_ns_run returns normally iff all arrays have matching lengths, logl is ascending (strictly, if dup_assert), thread labels are exactly 0..n_threads-1, some thread starts at -inf, and each thread starts no higher than its first sample and ends exactly at its last; otherwise it raises AssertionError.", "quantifier": "all run dictionaries", "why_tests_cant": "Soundness and completeness quantify over all runs.", "anchors": ["nestcheck/ns_run_utils.py:check_ns_run", "nestcheck/ns_run_utils.py:check_ns_run_members", "nestcheck/ns_run_utils.py:check_ns_run_logls", "nestcheck/ns_run_utils.py:check_ns_run_threads"]}
{"id": "C25", "title": "Prior volumes assigned to samples sum to one", "statement": "For every run with positive live counts, sum_i exp(logw_i - logl_i) = 1 and each term is positive, for expected and for simulated prior volumes, for any number of samples including one and two.", "quantifier": "all positive nlive arrays of any length >= 1, all simulated shrinkage draws in (0,1)", "why_tests_cant": "The first, last, two-sample and one-sample cases use different formulas.", "anchors": ["nestcheck/ns_run_utils.py:get_logw", "nestcheck/ns_run_utils.py:get_logx", "nestcheck/ns_run_utils.py:log_subtract"]}
{"id": "C26", "title": "Prior volumes shrink strictly", "statement": "get_logx returns strictly decreasing negative values, step i being -1/nlive[i] (expected) or log(u_i)/nlive[i] (simulated); it raises AssertionError if any live count is not positive.", "quantifier": "all live point arrays, all draws in (0,1)", "why_tests_cant": "Every length.", "anchors": ["nestcheck/ns_run_utils.py:get_logx"]}
{"id": "C27", "title": "log_subtract computes log(a-b)", "statement": "exp(log_subtract(x, y)) = exp(x) - exp(y) whenever y < x.", "quantifier": "all real x > y", "why_tests_cant": "Real identity.", "anchors": ["nestcheck/ns_run_utils.py:log_subtract"]}
{"id": "C28", "title": "Relative weights are in (0,1] with maximum one", "statement": "get_w_rel returns values in (0,1], at least one equal to 1, in the ratio of exp(logw), and is unchanged if a constant is added to every logl.", "quantifier": "all runs with positive live counts", "why_tests_cant": "All runs.", "anchors": ["nestcheck/ns_run_utils.py:get_w_rel"]}
{"id": "C29", "title": "Evidence is bracketed by the likelihoods and scales with them", "statement": "min(logl) <= logz <= max(logl); adding c to every logl adds c to logz and multiplies evidence by exp(c); evidence = exp(logz) = sum_i L_i w_i.", "quantifier": "all runs with positive live counts, all c", "why_tests_cant": "Exact identities over the reals.", "anchors": ["nestcheck/estimators.py:logz", "nestcheck/estimators.py:evidence"]}
{"id": "C30", "title": "Parameter means are convex combinations", "statement": "param_mean lies between the smallest and largest sample value of the parameter, is affine-equivariant, is unchanged by rescaling the likelihood, and param_squared_mean >= param_mean^2; IndexError for a missing parameter becomes nan exactly when handle_indexerror is set.", "quantifier": "all runs, parameters, log weights", "why_tests_cant": "All weights.", "anchors": ["nestcheck/estimators.py:param_mean", "nestcheck/estimators.py:param_squared_mean"]}
{"id": "C31", "title": "Weighted quantiles are bounded, monotone and scale free", "statement": "weighted_quantile raises AssertionError unless 0 < probability < 1; otherwise it lies between the smallest and largest value, is nondecreasing in probability, does not change when weights are multiplied by a positive constant, and for distinct values does not depend on the order of the samples or the sort algorithm and is exactly the linear interpolation between the middles of the cumulative weights.", "quantifier": "all probabilities, values and positive weights of any length", "why_tests_cant": "Interpolation between unequal cumulative weights has unboundedly many configurations.", "anchors": ["nestcheck/estimators.py:weighted_quantile", "nestcheck/estimators.py:param_cred"]}
{"id": "C32", "title": "Radial estimators dominate parameter means", "statement": "r_mean >= 0, |param_mean| <= r_mean for each parameter and r_mean^2 <= sum of param_squared_mean; r_cred is the weighted quantile of the radii and is non-negative.", "quantifier": "all runs with log weights", "why_tests_cant": "Inequalities for all weights.", "anchors": ["nestcheck/estimators.py:r_mean", "nestcheck/estimators.py:r_cred"]}
{"id": "C33", "title": "run_estimators equals calling each estimator on its own", "statement": "run_estimators(run, list)[i] = list[i](run) for expected weights: sharing logw changes nothing; output length is the number of estimators.", "quantifier": "all runs, all estimator lists", "why_tests_cant": "All lists.", "anchors": ["nestcheck/ns_run_utils.py:run_estimators", "nestcheck/estimators.py:logz"]}
{"id": "C34", "title": "A bootstrap replication is a multiset of the run's threads", "statement": "bootstrap_resample_run returns a run whose samples are exactly the samples of n_threads threads drawn with replacement from the run (ninit_sep: ninit from the first ninit and the rest from the others), in ascending logl.", "quantifier": "all runs, all random draws", "why_tests_cant": "Random draws.", "anchors": ["nestcheck/error_analysis.py:bootstrap_resample_run", "nestcheck/ns_run_utils.py:combine_threads"]}
{"id": "C35", "title": "Seeded resampling is reproducible and isolated", "statement": "With an integer random_seed the result of bootstrap_resample_run does not depend on the global random state and leaves it unchanged whenever the call returns (a call that raises can leave the seeded state behind); run_bootstrap_values with default seeds is a function of its arguments only; with random_seed=False the global state is the only source of randomness.", "quantifier": "all runs, seeds and states", "why_tests_cant": "State leakage.", "anchors": ["nestcheck/error_analysis.py:bootstrap_resample_run", "nestcheck/error_analysis.py:run_bootstrap_values"]}
{"id": "C36", "title": "Bootstrapping a static run never fails", "statement": "For every valid run all of whose threads start from the whole prior and have strictly ascending logl, and every random draw, bootstrap_resample_run returns a run with positive live counts ending in 1.", "quantifier": "all valid static runs and draws", "why_tests_cant": "Draw-dependent failure.", "anchors": ["nestcheck/error_analysis.py:bootstrap_resample_run"]}
{"id": "C37", "title": "When bootstrapping a dynamic run can fail", "statement": "For every valid run with proper threads whose initial threads are labelled first, bootstrap_resample_run returns for every draw in which each drawn thread with a finite start is born above the lowest drawn sample, and each of its samples has a drawn sample below it that is no further from its start; ninit_sep=True does not by itself guarantee this: there is a valid run and draw for which the call raises AssertionError.", "quantifier": "all valid dynamic runs and draws", "why_tests_cant": "Draw-dependent failure.", "anchors": ["nestcheck/error_analysis.py:bootstrap_resample_run", "nestcheck/ns_run_utils.py:dict_given_run_array"]}
{"id": "C38", "title": "flip_skew preserves mean and standard deviation", "statement": "Bootstrap values with flip_skew=True have, per estimator, the same mean and (ddof=1) standard deviation as with flip_skew=False, and are its values reflected about their mean.", "quantifier": "all value arrays", "why_tests_cant": "Exact identity for all arrays.", "anchors": ["nestcheck/error_analysis.py:run_bootstrap_values", "nestcheck/error_analysis.py:run_std_bootstrap"]}
{"id": "C39", "title": "Credible bounds are monotone in the requested probability", "statement": "run_ci_bootstrap is nondecreasing in cred_int; with n_simulate values and default flipping it equals 2*(estimate - mean) + interpolated quantile of the resampled values at cred_int.", "quantifier": "all bootstrap values and levels in (0,1)", "why_tests_cant": "Interpolation configurations.", "anchors": ["nestcheck/error_analysis.py:run_ci_bootstrap"]}
{"id": "C40", "title": "A single-thread run has zero bootstrap error", "statement": "If a run has one thread every replication gives the run itself, so run_std_bootstrap is zero and run_ci_bootstrap equals the estimate, for every estimator and seed.", "quantifier": "all single-thread runs with ascending distinct logl, all estimators depending on logl, nlive and theta", "why_tests_cant": "All estimators.", "anchors": ["nestcheck/error_analysis.py:run_std_bootstrap", "nestcheck/error_analysis.py:run_ci_bootstrap"]}
{"id": "C41", "title": "Implementation error is a bounded excess of standard deviation", "statement": "imp_std is 0 when bs_std >= vals_std, otherwise imp_std^2 + bs_std^2 = vals_std^2; always 0 <= imp_std <= vals_std and imp_frac in [0,1]; monotone in vals_std, antitone in bs_std; the uncertainties are the sample standard deviations of the values recomputed from nsim normal draws of vals_std and then of bs_std, both started from the seed; the results do not depend on the global random state and leave it unchanged. With random_seed=None there is a seed from the operating system for each element: imp_std and imp_frac are as for every other seed, only the uncertainties differ. A negative uncertainty raises ValueError and leaves the seeded random state behind.", "quantifier": "all non-negative inputs with positive vals_std (and any element with a negative uncertainty)", "why_tests_cant": "Real inequality.", "anchors": ["nestcheck/error_analysis.py:implementation_std"]}
{"id": "C42", "title": "Each unordered pair is compared exactly once", "statement": "pairwise_distances returns for a list of n samples exactly n(n-1)/2 entries per distance type, one for each pair i>j, computed from those two samples in that order, under the index str((i, j)).", "quantifier": "all list lengths", "why_tests_cant": "All n.", "anchors": ["nestcheck/error_analysis.py:pairwise_distances"]}
{"id": "C43", "title": "The result cache behaves as a write-once map", "statement": "With save_name given, default options and no I/O failure, every call of a decorated function returns the value computed by the first call that reached the function since the file was absent; later calls do not invoke the function; a call that raises stores nothing; without save_name nothing is read or written; saving makes all missing directories which contain the file (unless that fails) and never removes one.", "quantifier": "all histories of calls with any arguments", "why_tests_cant": "Histories.", "anchors": ["nestcheck/io_utils.py:save_load_result", "nestcheck/io_utils.py:pickle_save", "nestcheck/io_utils.py:pickle_load"]}
{"id": "C44", "title": "overwrite_existing=False keeps saved data unless two saves share a second", "statement": "With overwrite_existing=False pickle_save, whatever fails, leaves every existing file unchanged except a file that already has the time-stamped name; any number of saves at different times loses nothing. If the file with the time-stamped name exists (a third save in the same second) it is overwritten (a recorded defect).", "quantifier": "all file systems, clocks, faults and histories", "why_tests_cant": "Clock collisions.", "anchors": ["nestcheck/io_utils.py:pickle_save"]}
{"id": "C45", "title": "A failed or interrupted save never leads to a wrong result", "statement": "After a save that failed or was interrupted at any point, a later call with load=True returns the value stored before, the value being saved, or the result of calling the function, or it raises EOFError or UnpicklingError; it never returns anything else, and a call with load=False repairs the file. Recorded defects: an incomplete pickle is not recomputed but raises on every later call, and an OSError of os.makedirs loses the result.", "quantifier": "all crash points and faults of the save", "why_tests_cant": "Crash points.", "anchors": ["nestcheck/io_utils.py:pickle_save", "nestcheck/io_utils.py:save_load_result"]}
{"id": "C46", "title": "parallel_apply and parallel_map equal the sequential map", "statement": "For every worker schedule parallel_apply returns the results of the list comprehension in some order (in input order when parallel=False), parallel_map returns them in input order; each element is processed exactly once.", "quantifier": "all functions, lists, worker counts and schedules", "why_tests_cant": "Schedules.", "anchors": ["nestcheck/parallel_utils.py:parallel_apply", "nestcheck/parallel_utils.py:parallel_map"]}
{"id": "C47", "title": "Diagnostics tables hold one row per run, whatever the schedule", "statement": "estimator_values_df and bs_values_df return for every completion order of the workers a table with one row per run holding the values (bootstrap values) of that run, in order of completion (of the runs themselves without parallelisation), or fail for every order. thread_values_df does so if all runs have as many threads as the first; otherwise whether it returns or raises AssertionError depends on which run is completed first (a recorded defect). Without runs estimator_values_df raises ValueError; bs_values_df and thread_values_df raise KeyError, as they do without estimators if the calculations for the runs return. With one run and thread_pvalue or bs_stat_dist run_list_error_values raises an exception.", "quantifier": "all run lists, deterministic estimators and schedules", "why_tests_cant": "Schedules.", "anchors": ["nestcheck/diagnostics_tables.py:thread_values_df", "nestcheck/diagnostics_tables.py:bs_values_df", "nestcheck/diagnostics_tables.py:estimator_values_df"]}
{"id": "C48", "title": "Summary statistics are the stated estimators", "statement": "summary_df gives mean, ddof=1 standard deviation and their standard errors for each column, in the row order true values, mean, std, rmse; rmse^2 = (mean - truth)^2 + (n-1)/n std^2; the order of the rows of the input does not matter; summary_df_from_array with axis=1 on the transpose and summary_df_from_list give the same table; one row raises ZeroDivisionError. The index of every table returned is the documented one; empty lists, results of wrong length and other axes are rejected. With nan in a column the mean and standard deviation are those of the other values, but the standard errors use the number of all rows (a recorded defect).", "quantifier": "all arrays with at least two rows", "why_tests_cant": "Identity for all arrays.", "anchors": ["nestcheck/pandas_functions.py:summary_df", "nestcheck/pandas_functions.py:rmse_and_unc", "nestcheck/pandas_functions.py:summary_df_from_array", "nestcheck/pandas_functions.py:summary_df_from_list"]}
{"id": "C49", "title": "Efficiency gain is a variance ratio", "statement": "get_eff_gain returns adjust*(base/meth)^2 with first-order propagated uncertainty; comparing a method with itself gives gain adjust, swapping the methods inverts the gain (adjust=1), and rescaling results leaves it unchanged.", "quantifier": "all non-zero inputs", "why_tests_cant": "Identity.", "anchors": ["nestcheck/pandas_functions.py:get_eff_gain", "nestcheck/pandas_functions.py:array_ratio_std"]}
{"id": "C50", "title": "The weighted kde is a probability density", "statement": "For non-negative weights where two different samples have positive weight, weighted_1d_gaussian_kde returns the values of one density: the mixture of normal densities centred on the samples with the weights as proportions and Scott bandwidth from the effective sample number; it is positive, integrates to one, and has the weighted sample mean as its mean. Rescaling all weights or reordering the samples changes nothing, shifting the samples shifts it, with equal weights the effective sample number is n. In every other case with non-negative weights there is no result (nan), and arrays of different lengths are rejected.", "quantifier": "all sample and weight arrays, all points", "why_tests_cant": "Integral over the reals.", "anchors": ["nestcheck/plots.py:weighted_1d_gaussian_kde"]}
{"id": "C51", "title": "Packing samples for fgivenx is lossless", "statement": "Interleaving values and weights into a nan-padded row and unpacking with alternate_helper gives back the two arrays, for every function called on them and every padding, so in the arrays of plot_bs_dists each row unpacks to the values and weights of its own replication. If a value is nan this fails (a recorded defect): an odd number of nans makes the kde raise AssertionError, with an even number weights can be taken for values.", "quantifier": "all arrays, all paddings", "why_tests_cant": "All lengths.", "anchors": ["nestcheck/plots.py:plot_bs_dists", "nestcheck/plots.py:alternate_helper"]}
{"id": "C52", "title": "Posterior mass curves are normalised", "statement": "For sorted logx, not all equal, rel_posterior_mass returns positive weights proportional to exp(logx+logl) whose trapezium integral over logx is 1 in absolute value; adding a constant to the logls changes nothing; for equal logx there is no result. The simulated curves of param_logx_diagram have ascending logx, weights of the same kind and area one.", "quantifier": "all sorted logx arrays, all runs with positive live counts and (positive) draws", "why_tests_cant": "Identity.", "anchors": ["nestcheck/plots.py:rel_posterior_mass", "nestcheck/plots.py:param_logx_diagram"]}
{"id": "C53", "title": "Plotting and the random state", "statement": "What bs_param_dists and (without thinning) param_logx_diagram draw does not depend on the global random state, and a call that returns leaves that state as it was. With scatter thinning param_logx_diagram ends in one fixed state whatever the state of the caller was (a recorded defect), and a call of bs_param_dists that raises for a wrong number of labels or more than five runs leaves the seeded state. param_logx_diagram with threads_to_plot never returns for four or more runs (a recorded defect).", "quantifier": "all random states, runs, functions and options", "why_tests_cant": "One option combination leaks.", "anchors": ["nestcheck/plots.py:bs_param_dists", "nestcheck/plots.py:param_logx_diagram"]}
{"id": "C54", "title": "What plotting live points does to the runs", "statement": "A call of plot_run_nlive that returns has set the first element of the logx array of each run that has one to zero and changed nothing else (a recorded defect), so the runs are unchanged exactly if these elements were zero. Each line drawn has logx zero first and the (given, stored or expected) logx after it, the live counts as its values and minus the trapezium sum as its area, method by method.", "quantifier": "all dictionaries of runs and lists of method names", "why_tests_cant": "Aliasing.", "anchors": ["nestcheck/plots.py:plot_run_nlive"]}
{"id": "C55", "title": "Dummy runs are valid runs", "statement": "For threads starting from the whole prior, get_dummy_run returns a run passing check_ns_run, with nthread*nsamples samples holding exactly the drawn logls (scaled) and parameters, nsamples samples for each of nthread labels, and live counts running from nthread to one, for every positive size and every random state in which no logl of a thread is drawn twice. If all drawn logls differ, each label stands for the logls drawn for one thread, the threads are numbered in the order of their first samples, nlive_array counts the threads present, and writing the run and processing it gives back exactly the run. With a finite logl_start and at least two samples it always raises AssertionError (a recorded defect).", "quantifier": "all sizes and states, all Argsort implementations", "why_tests_cant": "All draws.", "anchors": ["nestcheck/dummy_data.py:get_dummy_run", "nestcheck/dummy_data.py:get_dummy_thread"]}
{"id": "C56", "title": "Dummy dynamic runs are valid runs", "statement": "For distinct logls, get_dummy_dynamic_run returns a run passing check_ns_run with exactly the drawn samples and with each live count equal to the number of threads spanning the sample, for every positive size and every random state in which no dynamic thread is drawn to start on the lowest sample. If exactly one dynamic thread is drawn to start there it raises AssertionError (a recorded defect).", "quantifier": "all sizes and states", "why_tests_cant": "All draws.", "anchors": ["nestcheck/dummy_data.py:get_dummy_dynamic_run"]}
{"id": "C57", "title": "Simulated-weights errors come from repeated simulated evaluations", "statement": "run_std_simulate(n_simulate=n) evaluates the estimators together n times with simulated weights, each evaluation continuing from the random state left by the previous one, and returns the (ddof=1) standard deviation of each estimator, provided the evaluations return; for a run with one sample and estimators of the run and weights alone it is zero; n_simulate=None raises AssertionError.", "quantifier": "all runs, estimators and (positive) draws", "why_tests_cant": "All draws.", "anchors": ["nestcheck/error_analysis.py:run_std_simulate", "nestcheck/ns_run_utils.py:run_estimators"]}
{"id": "C58", "title": "Per-thread estimates have one column per thread", "statement": "run_thread_values returns an array of shape (n_estimators, n_threads) whose column k holds the estimators of thread k.", "quantifier": "all runs and estimator lists", "why_tests_cant": "All sizes.", "anchors": ["nestcheck/error_analysis.py:run_thread_values"]}
{"id": "C59", "title": "Estimator names distinguish estimators", "statement": "get_latex_name gives two estimators the same name exactly if they estimate the same quantity of the same parameter and, for credible intervals, with the same percentage to the millionth (removing trailing zeros loses nothing, the median has a name of its own), and the name shows the parameter number counted from one and the percentage as a decimal number without trailing zeros; keywords in the call and in a functools.partial are treated alike. It raises AssertionError for repeated keywords, TypeError for unknown ones and KeyError for unknown functions. The names of estimators of different quantities are distinct column titles, none of which is the name of an index level.", "quantifier": "all estimators, indexes (also negative) and probabilities", "why_tests_cant": "All indexes and percentages.", "anchors": ["nestcheck/estimators.py:get_latex_name"]}
{"id": "C60", "title": "Decorators are transparent", "statement": "timing_decorator and save_load_result without save_name return exactly what the wrapped function returns and propagate its exceptions.", "quantifier": "all functions and arguments", "why_tests_cant": "All functions.", "anchors": ["nestcheck/io_utils.py:timing_decorator", "nestcheck/io_utils.py:save_load_result"]}
{"id": "C61", "title": "Bootstrap values are a matrix of estimators by replications", "statement": "run_bootstrap_values without flip_skew returns an array with one row per estimator and one column per replication, in which column j holds the estimators evaluated on the replication made with seed j of the run's own threads; run_std_bootstrap returns the (ddof=1) standard deviation of each row. For runs whose threads all start from the whole prior and estimators that return for every replication, both return.", "quantifier": "all runs, estimator lists, seeds", "why_tests_cant": "All sizes.", "anchors": ["nestcheck/error_analysis.py:run_bootstrap_values", "nestcheck/error_analysis.py:run_std_bootstrap"]}
{"id": "C62", "title": "A bad .stats file never costs a run", "statement": "Whatever the .stats file holds, and whether or not it exists, process_polychord_run returns the run that process_samples_array makes of the dead-birth file (or raises what that raises); if the .stats file cannot be read there is exactly one additional warning and output holds just file_root and base_dir; with process_stats_file=False the file is not read.  In a .stats file which can be read the entry nlike is nan exactly if an item of its line is not an integer (as PolyChord writes for large numbers), and nothing else depends on that line. Files which differ only in the white space between the entries of their lines (lines with evidences of clusters excepted) or in whether the last line ends with a newline are read alike.", "quantifier": "all contents of the .stats file, all dead-birth files", "why_tests_cant": "All malformed files.", "anchors": ["nestcheck/data_processing.py:process_polychord_run", "nestcheck/data_processing.py:process_polychord_stats"]}
{"id": "C63", "title": "Dynamic dynesty results keep their live counts", "statement": "For a dynamic dynesty result with samples_n (positive, ending in 1), whose batch_nlive add up to the number of ids and in which at most one thread starts exactly on the lowest sample, process_dynesty_run returns a valid run with nlive_array equal to samples_n and each thread starting on the contour at which its batch begins, provided samples_n begins with the number of threads starting at or below the lowest sample; otherwise it raises AssertionError. If batch_nlive does not add up to the number of ids it raises AssertionError. Without samples_n it raises AssertionError whenever a thread starts above the lowest sample (a recorded defect).", "quantifier": "all dynamic dynesty results of that shape", "why_tests_cant": "Live counts are recomputed from all batches and threads.", "anchors": ["nestcheck/data_processing.py:process_dynesty_run", "nestcheck/ns_run_utils.py:dict_given_run_array"]}
{"id": "C64", "title": "No sample is lost or invented", "statement": "count_samples of the run made by process_samples_array is the number of dead points; the counts of the threads from get_run_threads add up to the count of the run; whenever combine_threads returns, its samples are exactly those of the threads; the count of combine_ns_runs is the sum of the counts of the runs.", "quantifier": "all dead-birth arrays with distinct logls and consistent births, all valid runs, all lists of threads, all lists of combinable runs", "why_tests_cant": "Any number of samples, threads and runs.", "anchors": ["nestcheck/estimators.py:count_samples", "nestcheck/ns_run_utils.py:get_run_threads", "nestcheck/ns_run_utils.py:combine_threads", "nestcheck/ns_run_utils.py:combine_ns_runs"]}
{"id": "C65", "title": "The error report of batch_process_data names the right files", "statement": "For every order in which the worker processes complete, the report printed by batch_process_data has each type of error that occurred once, with the increasing list of exactly those positions in file_roots at which it occurred.", "quantifier": "all lists of distinct file roots, all processing functions that tag runs with their root, all completion orders", "why_tests_cant": "Completion order is chosen by the OS scheduler.", "anchors": ["nestcheck/data_processing.py:batch_process_data", "nestcheck/data_processing.py:process_error_helper"]}
{"id": "C66", "title": "Efficiency gain tables compare every method with the first one", "statement": "efficiency_gain_df gives for every method the summary of its own results and, for every method but the first, the ratio of the variance (and, with include_rmse, of the mean squared error) of the first method to its own, adjusted by the ratio of sample numbers, with first-order propagated uncertainty. The rows are ordered by calculation type, then by method in the order given, each value before its uncertainty, without repetition. Whenever it returns, the first method has the rows of summary_df and the others those and the gains.", "quantifier": "all lists of methods with distinct names and at least two results each", "why_tests_cant": "Any number of methods, results and columns.", "anchors": ["nestcheck/pandas_functions.py:efficiency_gain_df", "nestcheck/pandas_functions.py:get_eff_gain"]}
{"id": "C67", "title": "The table of error values has exactly the documented rows", "statement": "run_list_error_values returns a table whose rows are the values of each run, the standard deviations of the bootstrap values of each run and, if asked for, the KS p-values of the thread values and the distances between the bootstrap values for each pair of runs, without repeated index entries; the random state is left unchanged. Row k of the values and row k of the standard deviations are those of the k-th runs to be completed in two separate calculations, so with parallelisation they may belong to different runs (a recorded defect).", "quantifier": "all run lists, deterministic estimators, options and schedules", "why_tests_cant": "Any number of runs; schedules.", "anchors": ["nestcheck/diagnostics_tables.py:run_list_error_values", "nestcheck/error_analysis.py:pairwise_distances"]}
{"id": "C68", "title": "The error summary is reproducible", "statement": "run_list_error_summary returns, for every completion order of the workers, with or without parallelisation and for every random state, the same table, and leaves the random state unchanged; its rows are the means, standard deviations and root mean squared errors over the runs with their uncertainties, the mean bootstrap errors, the implementation errors found from these (with simulated uncertainties) and the true values, in the documented order.", "quantifier": "all lists of at least two runs, deterministic estimators, symmetric distances, schedules and random states", "why_tests_cant": "Schedules.", "anchors": ["nestcheck/diagnostics_tables.py:run_list_error_summary", "nestcheck/diagnostics_tables.py:error_values_summary", "nestcheck/error_analysis.py:implementation_std", "nestcheck/pandas_functions.py:summary_df_from_multi"]}
{"id": "C69", "title": "Analytic curves have the area of the runs they are compared with", "statement": "In the figure of plot_run_nlive with logl_given_logx and a negative logx_min, the curve of relative posterior mass is proportional to exp(logx+logl), the curve of remaining mass to its cumulative sum, and the area under each is the average area of the lines of the method it is normalised by (of all lines, if no known method is named). They exist if the likelihood is a number at two points at least and no average is over an empty list.", "quantifier": "all likelihood functions, run dictionaries, normalising methods, numbers of points", "why_tests_cant": "Integral over arbitrary curves.", "anchors": ["nestcheck/plots.py:plot_run_nlive", "nestcheck/plots.py:average_by_key", "nestcheck/plots.py:rel_posterior_mass"]}
{"id": "C70", "title": "Posterior distribution plots show bootstrap replications of the run", "statement": "plot_bs_dists uses n_simulate replications of the run, the same for all functions; each row holds the values of the function at the samples of as many of the run's threads as it has, drawn with replacement, with weights proportional to prior volume times likelihood in that replication, the largest being one; the means drawn are the weighted means over the run itself. For static runs and functions with one value per sample it always succeeds, as do bs_param_dists for one to five such runs and param_logx_diagram with enough colors.", "quantifier": "all valid runs, functions, numbers of replications and random states", "why_tests_cant": "All draws.", "anchors": ["nestcheck/plots.py:plot_bs_dists", "nestcheck/plots.py:bs_param_dists", "nestcheck/plots.py:param_logx_diagram"]}
{"id": "C71", "title": "Files written by write_run_output read back as the same run", "statement": "After write_run_output with write_dead=True, process_polychord_run reads from the files a valid run with the samples of the run, rounded to the digits written by fmt, and with live counts equal to the numbers of threads of the run present at each sample (so the same live counts if the run had those). Writing a run made from a dead-birth file reproduces that file sorted by logl, and [root]_dead.txt is the same without births.", "quantifier": "all runs passing check_ns_run with distinct logls, threads starting strictly below their first sample on the contour of a sample or from the whole prior, at least two samples, logl_init below all logls; all formats that keep distinct logls distinct", "why_tests_cant": "Composition of writer, file format, parser and thread reconstruction.", "anchors": ["nestcheck/write_polychord_output.py:write_run_output", "nestcheck/write_polychord_output.py:run_dead_birth_array", "nestcheck/data_processing.py:process_polychord_run"]}
{"id": "C72", "title": "Posterior files hold the weighted samples, equal-weight files a fair selection", "statement": "With posteriors=True [root].txt has one row per sample with its relative weight, -2 logl and parameters; with equals=True [root]_equal_weights.txt has, in order and without repetition, exactly those samples whose relative weight exceeds their draw, always including the sample of largest weight; each sample is kept with probability equal to its relative weight, independently of the others. nposterior and nequals are the numbers of rows (zero for files not asked for, which are left alone).", "quantifier": "all runs with positive live counts; all random states; every selection of samples", "why_tests_cant": "The claim is about a distribution.", "anchors": ["nestcheck/write_polychord_output.py:write_run_output", "nestcheck/ns_run_utils.py:get_w_rel"]}
{"id": "C73", "title": "The .stats file written by write_run_output reports the run", "statement": "When write_run_output with write_stats=True returns, process_polychord_stats reads from the file ndead = number of samples, the numbers of rows of the posterior files, and, unless stats_means_errs=False, the log evidence, the posterior mean of each parameter and as errors the results of run_std_bootstrap, which do not depend on the random state; other entries come from run[output]. The random state advances only by the draws for the equal-weights file. For runs whose threads all start from the whole prior it returns, without warnings. A missing file_root or base_dir, and a run with the key settings when dead points are written, raise AssertionError before anything is written; an unknown key in run[output] prevents a .stats file.", "quantifier": "all runs with positive live counts, options, output dictionaries and random states", "why_tests_cant": "Bootstrap replications must succeed for all draws.", "anchors": ["nestcheck/write_polychord_output.py:write_run_output", "nestcheck/write_polychord_output.py:write_stats_file", "nestcheck/error_analysis.py:run_std_bootstrap", "nestcheck/data_processing.py:process_polychord_stats"]}
{"id": "C74", "title": "combine_ns_runs leaves its arguments alone, and only fails to treat runs as values if they share an array", "statement": "combine_ns_runs never changes an array that exists when it is called, whether it returns or raises. If no two of the given runs refer to the same thread_labels array, result, exception and warnings depend on the values of the runs only. If two places of the list refer to the same array (e.g. the same run dictionary given twice) it never returns, and for valid runs of one dimension the exception is AssertionError, even if duplicate loglikelihoods are allowed.", "quantifier": "all lists of runs, all patterns of sharing, all options of the check", "why_tests_cant": "Whether arguments are changed, and which object is shared with which, is invisible to comparisons of values.", "anchors": ["nestcheck/ns_run_utils.py:combine_ns_runs"]}
{"id": "C75", "title": "The table of efficiency gains as formatted for papers", "statement": "paper_format_efficiency_gain_df applied to the table of efficiency_gain_df returns exactly these rows, in this order: for each method, in the order given, the standard deviation and its uncertainty, then for each method but the first the efficiency gain and its uncertainty.  The values are those of the input table, except in the columns samples and likelihood calls, where the value rows of standard deviations hold the mean rounded to the nearest integer and all other rows nan.  Row names depend on the method with a leading \"dynamic \" replaced, so methods called X and dynamic X get the same names.  A mean which is nan in one of these columns makes it raise ValueError.", "quantifier": "all numbers of methods >= 2, runs, columns; all values; all method names free of the replaced substrings", "why_tests_cant": "Interplay of sorting, positions and in-place column replacement for all shapes of the table.", "anchors": ["nestcheck/pandas_functions.py:paper_format_efficiency_gain_df", "nestcheck/pandas_functions.py:efficiency_gain_df"]}
{"id": "C76", "title": "kde_plot_df draws every cell, in a subplot of its column", "statement": "If every cell holds at least two different samples, kde_plot_df with at least two columns of subplots and enough of them draws each column of the table in a subplot of its own, row by row, with one line per cell labelled by the row; each line has 200 equally spaced points, over a range which contains all samples of the column strictly inside; its heights are the kernel density estimate (a density integrating to one, equal to weighted_1d_gaussian_kde with equal weights), or with normalize=False that divided by its largest value, so that the maximum is exactly 1.  The default number of columns of subplots is the smallest that suffices.  A table with one column raises TypeError with the defaults, one with at most nrows columns (nrows > 1) raises IndexError, as do too few subplots.", "quantifier": "all tables, all numbers of columns, rows and samples, all values", "why_tests_cant": "Layout arithmetic for all shapes, and densities for all samples.", "anchors": ["nestcheck/plots.py:kde_plot_df"]}
{"id": "C77", "title": "Simulated prior volumes follow the nested sampling law", "statement": "If the numbers drawn by numpy are independent and uniform on [0, 1), get_logx with simulate=True almost surely returns; the mean of each simulated log volume is the log volume returned with simulate=False and its variance is the sum of 1/nlive^2 up to that sample; the shrinkage at each sample has the law of the largest of nlive uniform draws, so the mean of the volume is the product of nlive/(nlive+1); the evidence from simulated weights has as its mean the sum of likelihoods times the prior volumes found from these mean volumes.", "quantifier": "All lists of positive live counts, all runs, all probability spaces on which the draws are independent and uniform", "why_tests_cant": "A statement about means and distributions: a test can only average finitely many simulations and accept within a tolerance.", "anchors": ["nestcheck/ns_run_utils.py:get_logx", "nestcheck/ns_run_utils.py:get_logw", "nestcheck/estimators.py:evidence", "nestcheck/estimators.py:logz"]}
{"id": "C78", "title": "Bootstrap replications are unbiased, with the variance between threads", "statement": "If threads are drawn uniformly and independently (with ninit_sep separately from the first ninit threads and from the others), every bootstrap replication of a static run is returned, and for any function of the samples the sum over the replication has the sum over the run as its mean; its variance is the sum over the threads of the squared deviation of the sum over the thread from the mean over its group of threads. So on average a replication contains each sample as often as the run does, and as many samples.", "quantifier": "All static runs, all real functions of a sample, with and without ninit_sep, all probability spaces on which the draws are uniform and independent", "why_tests_cant": "A statement about means and variances over the random draws: a test can only average finitely many replications and accept within a tolerance.", "anchors": ["nestcheck/error_analysis.py:bootstrap_resample_run"]}
{"id": "C79", "title": "Weights and evidence survive rounding and overflow", "statement": "In floating point arithmetic (any monotone rounding with exact small integers, any order of summation, overflow to infinity and underflow allowed) get_logx returns non-increasing log volumes that are finite and not positive; get_w_rel returns weights between 0 and 1 one of which is exactly 1, never nan, whatever the size of the loglikelihoods; logz is finite, at least the largest log weight, and larger by at most the (rounded) log of the number of samples. Samples of loglikelihood -inf have weight exactly 0, and if all samples have then logz is -inf and the weights are nan. With simulate=True this needs draws different from 0: a draw of exactly 0 for a sample that is not among the last two makes weights nan. Without rounding these are the calculations the other properties speak of.", "quantifier": "all arithmetics satisfying the assumptions, all runs with positive live counts and loglikelihoods that are -inf or finite (the last one finite) and stay finite when the number of samples is added, all lists of draws", "why_tests_cant": "Tests see one arithmetic on a few inputs; the claim covers loglikelihoods whose exponentials overflow, and all roundings.", "anchors": ["nestcheck/ns_run_utils.py:get_logx", "nestcheck/ns_run_utils.py:get_logw", "nestcheck/ns_run_utils.py:get_w_rel", "nestcheck/ns_run_utils.py:log_subtract", "nestcheck/estimators.py:logz"]}
{"id": "C80", "title": "Processes sharing a cache file", "statement": "When several processes call functions decorated with save_load_result with the same save_name at the same time: if the file holds a complete result, it never changes, no process calls the function or fails, and all return that result. Once one process has opened the file for writing, calls which begin afterwards return the value it writes or raise EOFError, and never call the function. If the file is missing, the function is deterministic and no process is killed or fails to write, then the file is complete whenever nobody is writing and somebody has got beyond calling the function. If all results fit in one buffer, every call returns a value the function returned in one of the processes, or raises EOFError, whatever is killed. A process which finds the file missing returns what the function returned to it. A truncated file makes all later calls raise EOFError. Without these conditions it is false: with larger results a call may return a value the function never returned, even for a deterministic function, and with different results the file may be left so for good.", "quantifier": "all numbers of processes, all interleavings of their operations on the file, all sizes of results, all pickle formats in which only the end of a pickle completes it", "why_tests_cant": "Interleavings are chosen by the OS; the failures need particular ones.", "anchors": ["nestcheck/io_utils.py:save_load_result", "nestcheck/io_utils.py:pickle_save", "nestcheck/io_utils.py:pickle_load"]}
{"id": "C81", "title": "The distances between samples are the metrics they are named after", "statement": "For non-empty samples statistical_distances returns the KS p-value and then: as KS distance the largest difference, over all real numbers, between the fractions of samples up to it; as earth mover distance the least cost of moving one list of samples to the other (also the largest difference of averages of a 1-Lipschitz function); as energy distance the root of twice the mean distance between the lists minus the mean distances within them. Each is symmetric, satisfies the triangle inequality, ignores the order of samples, and is zero exactly if every value makes up the same fraction of both lists. The KS distance is between 0 and 1 and unchanged by strictly increasing transformations; scaling samples by a multiplies the earth mover distance by |a| and the energy distance by its root. Empty samples raise ValueError.", "quantifier": "all pairs of lists of real numbers of any lengths; all transformations", "why_tests_cant": "Properties of all pairs and triples of samples; minimum over all plans.", "anchors": ["nestcheck/error_analysis.py:statistical_distances", "nestcheck/error_analysis.py:pairwise_distances"]}
{"id": "C82", "title": "From a dead-birth array to error bars without failure or nan", "statement": "For every consistent dead-birth array with d parameters and every list of the package's estimators that apply (parameter index < d, probability in (0,1)): process_samples_array returns a run that passes check_ns_run; run_estimators (expected or simulated weights), run_std_simulate (n>=2) and run_thread_values return numbers only; if moreover no contour but the initial one has two births, run_bootstrap_values, run_std_bootstrap and run_ci_bootstrap with default seeds return numbers only (standard deviations non-negative) and leave random state and warnings unchanged. The same holds for the MultiNest files of such an array.", "quantifier": "all consistent dead-birth arrays, estimator lists, numbers of simulations, random generators with positive draws", "why_tests_cant": "Composition over every input array and every draw: a test runs one pipeline on one file; failures of intermediate assertions and nan depend on which threads are drawn.", "anchors": ["nestcheck/data_processing.py: process_samples_array, process_multinest_run", "nestcheck/ns_run_utils.py: run_estimators, get_run_threads", "nestcheck/error_analysis.py: run_bootstrap_values, run_std_bootstrap, run_ci_bootstrap, run_std_simulate, run_thread_values"]}
{"id": "C83", "title": "Estimates are stable under perturbation of a run", "statement": "If two runs have the same live point counts and their loglikelihoods (or the logw given) differ by at most eps, then with the same random state: logz differs by at most eps and evidence by at most a factor exp(eps); param_mean, param_squared_mean and r_mean differ by at most tanh(eps/2) <= eps/2 times the range of the values, plus the largest change of a value; param_cred and r_cred at probability p are at most those of the other run at p + tanh(eps/2), plus the largest change of a value, if the values remain distinct and in the same order (and by symmetry the other way round). In particular this bounds the effect of writing a run with rounding to PolyChord files and reading it back on logz and param_mean. Without the condition on the order it is false: weighted_quantile may jump however small the change is.", "quantifier": "all pairs of runs with equal live counts, all eps, all random states, all probabilities, all roundings that keep the order of loglikelihoods", "why_tests_cant": "Bounds over all pairs of nearby runs of any size; a test compares one pair of runs and cannot show that the bound is never exceeded.", "anchors": ["nestcheck/estimators.py: logz, evidence, param_mean, param_squared_mean, param_cred, r_mean, r_cred, weighted_quantile", "nestcheck/write_polychord_output.py: write_run_output", "nestcheck/data_processing.py: process_polychord_run"]}
{"id": "C84", "title": "Accuracy of weights, logz and param_mean in floating point arithmetic", "statement": "If every floating point operation has a relative error of at most u and, if it underflows, an absolute error of at most e (the standard model; shown to hold for IEEE 754 binary formats rounding to nearest even, with correctly rounded exp and log), then get_logw, logz and param_mean as computed from a run with expected (not simulated) prior volumes succeed and differ from their exact values by at most explicit bounds in u, e, the number of samples, the largest number of live points, the expected log compression, the size of the loglikelihoods and parameters, and the order in which np.sum adds. In particular for 64 bit floats and runs of at most 100000 samples and 1000 live points, loglikelihoods up to a million and prior volumes down to exp(-1000), log weights and logz are wrong by at most 0.0001 and param_mean by at most 0.0001 times the size of the parameter, whatever the order of summation.", "quantifier": "all arithmetics meeting the standard model, all runs whose size fits the precision, all orders of summation, all parameters", "why_tests_cant": "Tests compare a few results with tolerances chosen by hand and cannot bound the rounding error over all runs and orders of summation; log_subtract of close numbers loses digits in a way that depends on the number of live points.", "anchors": ["nestcheck/ns_run_utils.py: get_logx, get_logw, log_subtract", "nestcheck/estimators.py: logz, param_mean"]}
{"id": "C85", "title": "Sample arrays of runs and back", "statement": "array_given_run succeeds exactly for runs with at least one sample whose arrays have the same lengths, and gives row i the loglikelihood, thread label (nan if the run has no labels), change of the live count after the sample (-1 for the last) and parameters of sample i. dict_given_run_array makes the run again from this array and thread_min_max if and only if the first live count is the number of threads starting at or below the lowest sample, all are positive and the last is 1 (given that at most one thread starts exactly on the lowest sample). Runs made by process_samples_array are recovered if no thread starts on the lowest sample; each of their live counts is the number of threads started below and not ended before the sample. Runs with the same array differ at most by a constant in their live counts.", "quantifier": "all runs, labelled or not, all thread_min_max, all consistent sets of dead points", "why_tests_cant": "Tests look at single arrays; whether nothing is lost for every run, and exactly when live counts can be recovered, is a statement about all runs.", "anchors": ["nestcheck/ns_run_utils.py: array_given_run, dict_given_run_array", "nestcheck/data_processing.py: process_samples_array"]}
{"id": "C86", "title": "Changing the units of the parameters", "statement": "If the parameters of all samples are replaced by functions of them, then process_samples_array, get_run_threads, combine_threads, combine_ns_runs and bootstrap_resample_run give the same result with the parameters replaced, with the same random draws, warnings and exceptions (for the last three, if the function keeps equal and different numbers of parameters equal and different). count_samples, logz and evidence do not change; if parameter ind becomes a*x+b then param_mean becomes a*m+b, param_cred becomes a*q+b (a > 0, sort by comparisons), param_squared_mean becomes a^2 times its value (b = 0), whatever happens to other parameters; r_mean and r_cred are multiplied by c if all radii are. For any estimators which change affinely, rows of run_bootstrap_values change in the same way, standard deviations from run_std_bootstrap and run_std_simulate are multiplied by |a|, and bounds from run_ci_bootstrap become a*v+b (a >= 0). For distinct values the weighted quantile at p of values with changed sign is minus that at 1-p; for a < 0 the quantile at the same p is not carried over.", "quantifier": "all runs, valid or not, all functions of the parameters, all estimators which change affinely, all random generators and states, all numbers of resamples and seeds", "why_tests_cant": "Tests use a single parametrisation of each likelihood; equivariance relates the results for all runs and all their reparametrisations.", "anchors": ["nestcheck/data_processing.py: process_samples_array", "nestcheck/ns_run_utils.py: get_run_threads, combine_threads, combine_ns_runs, run_estimators", "nestcheck/error_analysis.py: bootstrap_resample_run, run_bootstrap_values, run_std_bootstrap, run_ci_bootstrap, run_std_simulate", "nestcheck/estimators.py: all estimators, weighted_quantile"]}
{"id": "C87", "title": "The execution of the sampler is recovered from its dead-birth array", "statement": "Let a nested sampler start from points drawn from the whole prior, and at each iteration remove the live point with the lowest loglikelihood and add any number of points from above its contour, recording that contour as their birth contour. From the points written by a complete execution, in any order, process_samples_array returns (without warning) the samples in the order of their removal, with nlive_array the numbers of live points at each iteration. Consecutive samples of a thread are a removed point and one of the points added at its removal, threads end exactly at the iterations which added no point, and thread_min_max holds the contour at which the first point of the thread was added (-inf for initial points). If the sampler stops and the remaining points are written as well, they follow in ascending order with live counts k, k-1, ..., 1. If each iteration adds one point, the live counts are constant until then and there are as many threads as initial points, all starting from the whole prior; MultiNest files of such an execution are accepted by process_multinest_run. Conversely every consistent dead-birth array (C01) is written by some execution.", "quantifier": "all executions: all initial points, numbers of iterations, numbers of points added and loglikelihoods; all row orders, sorting algorithms and settings", "why_tests_cant": "Executions of samplers are unbounded; tests use the output of a few runs and cannot compare with the execution which wrote them.", "anchors": ["nestcheck/data_processing.py: process_samples_array, birth_inds_given_contours, threads_given_birth_inds, process_multinest_run"]}
{"id": "C88", "title": "Processing commutes with combining", "statement": "In a run made by process_samples_array, two samples have the same thread label if and only if one is the other's heir, or the heir of its heir, and so on, where the heir of a sample is the point with the lowest loglikelihood of those born on its contour; thread_min_max holds one row for each maximal chain of heirs, with the contour from which its first point was sampled (-inf for the whole prior) and the loglikelihood of its last point. If several dead-birth arrays without common loglikelihoods are processed and the runs combined with combine_ns_runs, the result has the same logl, theta, nlive_array and the same division of samples into threads (up to numbering) with the same thread_min_max rows as the run made by process_samples_array from the concatenation of the arrays, provided at most one point was born on the lowest contour. Without this condition combine_ns_runs may raise an AssertionError.", "quantifier": "all numbers of arrays, all consistent arrays, all row orders, sorting algorithms and settings", "why_tests_cant": "Tests combine a few given runs and cannot compare with the run which would have been made from all samples for every set of arrays.", "anchors": ["nestcheck/data_processing.py: process_samples_array, birth_inds_given_contours, threads_given_birth_inds", "nestcheck/ns_run_utils.py: combine_ns_runs, dict_given_run_array"]}
{"id": "C89", "title": "Changing the likelihood by an increasing function or a constant factor", "statement": "If a strictly increasing function is applied to all loglikelihoods (samples, birth contours, ends of threads), then process_samples_array, run_dead_birth_array, get_run_threads and combine_ns_runs give the same result with the function applied, with the same warnings and exceptions, and so do combine_threads and, with the same random draws, bootstrap_resample_run if the function keeps which of two loglikelihoods is closer to a third (as a*x+b does, a > 0); for other increasing functions combine_threads does if assert_birth_point is set or all threads start from the whole prior or at samples which are present, and bootstrap_resample_run if all threads start from the whole prior. Without this condition combine_threads may return different live counts. If the likelihood is multiplied by a constant, so that c is added to all loglikelihoods, then c is added to the log weights and to logz, evidence is multiplied by exp(c), and count_samples and all estimators of parameters and radii do not change; bootstrap values, standard deviations (bootstrap and simulated) and credible bounds change accordingly: error bars on logz and parameters stay the same, those on evidence are multiplied by exp(c).", "quantifier": "all runs and arrays, valid or not, all strictly increasing functions, all constants, all random generators and states, all numbers of resamples and seeds; sorts by comparisons", "why_tests_cant": "Tests use one normalisation of each likelihood; the statement relates the results for all runs and all monotone changes of their likelihood.", "anchors": ["nestcheck/data_processing.py: process_samples_array, birth_inds_given_contours, threads_given_birth_inds", "nestcheck/ns_run_utils.py: get_run_threads, combine_threads, combine_ns_runs, get_logw, run_estimators", "nestcheck/error_analysis.py: bootstrap_resample_run, run_bootstrap_values, run_std_bootstrap, run_ci_bootstrap, run_std_simulate", "nestcheck/write_polychord_output.py: run_dead_birth_array", "nestcheck/estimators.py: logz, evidence, param_mean, param_cred, param_squared_mean, r_mean, r_cred, count_samples"]}
{"id": "C90", "title": "Options", "statement": "An option which a function does not know (a misspelt name, say) never goes unnoticed: process_samples_array, process_polychord_run, combine_ns_runs, run_dead_birth_array, run_bootstrap_values, run_std_bootstrap, run_ci_bootstrap, parallel_apply, batch_process_data, run_list_error_values, estimator_values_df, summary_df, efficiency_gain_df, implementation_std, get_dummy_run, write_run_output, summary_df_from_multi and count_samples raise an exception before drawing a random number, giving a warning or changing a file. The order of the options never matters, those not given have their documented default, and n_simulate and cred_int have to be given. Exceptions: a function with cached results returns the loaded result whatever its other options are, and otherwise notices them; options in func_kwargs of batch_process_data are not looked at if file_roots is empty, and otherwise no run is returned and the failures are raised or reported. errors_to_handle inside func_kwargs is ignored, and after the call the caller's dictionary contains errors_to_handle, which a process function then refuses (recorded defects).", "quantifier": "all keyword dictionaries, all inputs, states and schedules, all process functions which refuse unknown options", "why_tests_cant": "There are infinitely many names of options; tests try one wrong name per function at most and no dictionaries passed through several functions.", "anchors": ["nestcheck/data_processing.py: process_samples_array, birth_inds_given_contours, process_polychord_run, batch_process_data, process_error_helper", "nestcheck/ns_run_utils.py: combine_ns_runs, check_ns_run", "nestcheck/error_analysis.py: run_bootstrap_values, run_std_bootstrap, run_ci_bootstrap, implementation_std", "nestcheck/parallel_utils.py: parallel_apply", "nestcheck/io_utils.py: save_load_result", "nestcheck/diagnostics_tables.py: run_list_error_values, estimator_values_df, run_list_error_summary", "nestcheck/pandas_functions.py: summary_df, efficiency_gain_df, summary_df_from_multi", "nestcheck/dummy_data.py: get_dummy_run", "nestcheck/write_polychord_output.py: write_run_output, run_dead_birth_array"]}
{"id": "C91", "title": "The volumes of an ideal sampler", "statement": "Let an ideal nested sampler start with independent draws from the prior, and in each iteration remove the point with the lowest likelihood and add any scheduled number of independent draws from the prior inside its contour until all points are used up, the likelihood having no plateaus. Then with probability one process_samples_array accepts the points it writes, in whatever order, and returns a run whose loglikelihoods are in the order of removal and whose nlive are the sampler's numbers of live points; and the prior volumes actually enclosed by these points have exactly the joint distribution of the volumes that get_logx simulates from that nlive. So the logx returned without simulation are the means of the logarithms of the true volumes, with variances the partial sums of 1/nlive^2, and the true volumes have the products of nlive/(nlive+1) as their means.", "quantifier": "all numbers of initial points, all schedules of added points (constant or dynamic), all loglikelihoods strictly decreasing with the enclosed volume, all orders of the rows, all generators with independent uniform draws", "why_tests_cant": "This is a statement about probability distributions of arbitrarily many dependent quantities; a test could only compare histograms for single schedules.", "anchors": ["nestcheck/data_processing.py: process_samples_array, birth_inds_given_contours", "nestcheck/ns_run_utils.py: get_logx"]}
{"id": "C92", "title": "The volumes of an adaptive sampler", "statement": "Let an ideal nested sampler as in C91 decide adaptively, from the points removed so far and the volumes they enclose, how many points it draws next inside the contour of the point just removed, and when to stop drawing (dynamic nested sampling), up to some number of points altogether; when it stops it writes the remaining live points too. With probability one process_samples_array accepts the points it writes, in whatever order, and returns a run whose loglikelihoods are in the order of removal and whose nlive are the sampler's numbers of live points. The factors by which the enclosed volume shrinks from each sample to the next, each to the power of nlive, are independent and uniform (if the number of points is random: continued with independent uniform numbers after the sampler has stopped); get_logx with these numbers as its draws and the nlive of the run returns exactly the logarithms of the volumes enclosed. The logx which get_logx returns without simulation has, for each sample, the same mean as the logarithm of the volume enclosed (if the number of points is random: for each number i, at sample i or at the last sample if there are fewer).", "quantifier": "all measurable rules for allocating points and for stopping, all numbers of points, all loglikelihoods strictly decreasing with the enclosed volume, all orders of the rows, all generators", "why_tests_cant": "This is a statement about the joint distribution of arbitrarily many dependent quantities for infinitely many allocation rules.", "anchors": ["nestcheck/data_processing.py: process_samples_array, birth_inds_given_contours", "nestcheck/ns_run_utils.py: get_logx"]}
{"id": "C93", "title": "The volumes of a combined run", "statement": "Let several ideal nested samplers as in C91 draw their points independently, each with its own numbers of points, and let each add at most one point in its first iteration. With probability one process_samples_array accepts the points each of them writes, in whatever order, combine_ns_runs accepts the resulting runs, and the combined run has one sample for each point of each sampler, in the order of the volumes they enclose, with nlive equal to the total number of live points of all samplers there. Given that nlive, the volumes enclosed by the samples of the combined run have jointly the distribution which exp(get_logx(nlive, simulate=True)) has, as if one sampler with those numbers of live points had produced them. The same law holds for every single sampler that allocates points from the order in which points were removed, without looking at their volumes: its decisions are independent of the factors by which the volume shrinks.", "quantifier": "all lists of samplers and numbers of points (for the law also without the restriction on the first iteration), all allocation rules which depend only on the order of removal, all loglikelihoods strictly decreasing with the enclosed volume, all orders of the rows, all measurable sets of volumes, all generators", "why_tests_cant": "This is a statement about the joint distribution of arbitrarily many dependent quantities, and about conditional distributions, which finitely many seeds cannot settle.", "anchors": ["nestcheck/ns_run_utils.py: combine_ns_runs, get_logx", "nestcheck/data_processing.py: process_samples_array"]}
{"id": "C94", "title": "The evidence converges to the truth as the number of live points grows", "statement": "Take a sequence of ideal nested samplers as in C91 (for any of them static or with a schedule of live points varying along the run) which start with more and more points, tending to infinity; nothing is assumed about the numbers of points they add later. Process the points each of them writes, in whatever order, with process_samples_array. The evidence computed from the resulting runs converges in mean to the integral of the likelihood over the prior volume, and logz converges in probability to its logarithm: for every tolerance, the probability that process_samples_array or logz fails or that logz is off by more than the tolerance tends to zero. More generally the sums of the prior volumes which nestcheck assigns to the samples, times any bounded and almost everywhere continuous function of the volume really enclosed, converge in mean to the integral of the function. In particular this holds for static runs whose number of live points tends to infinity, however many replacements are made before stopping, since the remaining live points are written too.", "quantifier": "all sequences of samplers, numbers of live points and schedules, all bounded loglikelihoods strictly decreasing with the enclosed volume, all tolerances, all orders of the rows, all sorting algorithms, settings and generators", "why_tests_cant": "Convergence is a statement about infinitely many runs of unbounded size; tests can only compare a few finite runs with the truth, within an error which they cannot bound.", "anchors": ["nestcheck/data_processing.py: process_samples_array", "nestcheck/estimators.py: logz, evidence", "nestcheck/ns_run_utils.py: get_logw, get_logx"]}
{"id": "C95", "title": "The evidence of adaptive samplers, and of combined runs, converges to the truth", "statement": "The convergence of C94 does not need schedules of live points which are fixed in advance. Take a sequence of ideal samplers as in C92, which choose how many points to add, and when to stop, by any measurable rule from the volumes seen so far (dynamic nested sampling, or standard nested sampling with any stopping criterion). If the number of points with which they start tends to infinity then, whatever they do afterwards, the evidence computed from the processed runs converges in mean to the integral of the likelihood over the prior volume, and logz converges in probability to its logarithm. The same holds for the runs made by combine_ns_runs from independent ideal samplers as in C93 if the total number of points with which the samplers of a combination start tends to infinity: it is enough to combine more and more runs, even if each of them has only a single live point.", "quantifier": "all measurable rules and stopping criteria, all sequences of numbers of points and of runs, all bounded loglikelihoods strictly decreasing with the enclosed volume, all tolerances, all orders of the rows, all sorting algorithms, settings and generators", "why_tests_cant": "Convergence is a statement about infinitely many runs of unbounded size, and about all possible rules for allocating points; tests can only compare a few finite runs of a few samplers with the truth.", "anchors": ["nestcheck/data_processing.py: process_samples_array", "nestcheck/estimators.py: logz, evidence", "nestcheck/ns_run_utils.py: combine_ns_runs, get_logw, get_logx"]}
{"id": "C96", "title": "Estimates of posterior means converge to the truth", "statement": "Let ideal nested samplers as in C92 draw points with parameters: a point is given by the prior volume x enclosed by its contour and by its spot on the contour, which for a point drawn from the prior is independent of x and has any fixed distribution; its parameters are any function of the two, and the samplers allocate their points by any measurable rule from the volumes seen so far. With probability one process_samples_array accepts the points they write, in whatever order, and returns the run with the loglikelihoods, parameters and numbers of live points of the removed points. If the number of points with which the samplers start tends to infinity then, for every bounded quantity of the parameters whose mean on a contour is almost everywhere a continuous function of x, the mean over the samples with the weights nestcheck assigns to them converges in probability to the mean of the quantity under the posterior distribution (the integral of likelihood times quantity over the prior, divided by the integral of the likelihood). In particular param_mean, param_squared_mean and r_mean converge in probability to the posterior means of the parameter, of its square and of the distance from the origin.", "quantifier": "all measurable rules and stopping criteria, all sequences of numbers of points, all bounded loglikelihoods strictly decreasing with the enclosed volume, all spaces and distributions of spots, all parameter functions, all bounded quantities as described, all tolerances, all orders of the rows, all sorting algorithms, settings and generators", "why_tests_cant": "Convergence is a statement about infinitely many runs of unbounded size and about all posterior distributions; tests can only compare a few finite runs with a known posterior, within an error which they cannot bound.", "anchors": ["nestcheck/data_processing.py: process_samples_array", "nestcheck/estimators.py: param_mean, param_squared_mean, r_mean", "nestcheck/ns_run_utils.py: get_logw, get_logx"]}
{"id": "C97", "title": "Estimates of credible bounds converge to the truth", "statement": "For the samplers of C96, if the number of points with which they start tends to infinity, the largest share of a single sample in the sum of the weights tends to zero in probability, and param_cred and r_cred converge in probability to the quantile of the parameter, or of the distance from the origin, under the posterior distribution, for every probability strictly between 0 and 1 for which that quantile is unique: the posterior distribution function is below the probability at all smaller numbers and above it at all larger ones. The parameter need not be bounded, and its distribution may have jumps and gaps.", "quantifier": "all measurable rules and stopping criteria, all sequences of numbers of points, all bounded loglikelihoods strictly decreasing with the enclosed volume, all parameters whose distribution function on a contour is almost everywhere a continuous function of the enclosed volume, all probabilities, tolerances, orders of the rows, sorting algorithms, settings and generators", "why_tests_cant": "Convergence is a statement about infinitely many runs of unbounded size and about all posterior distributions; tests can only compare a few finite runs with a known posterior, within an error which they cannot bound.", "anchors": ["nestcheck/data_processing.py: process_samples_array", "nestcheck/estimators.py: param_cred, r_cred, weighted_quantile", "nestcheck/ns_run_utils.py: get_logw, get_logx"]}
{"id": "C98", "title": "Simulating the prior volumes leaves the evidence right", "statement": "With simulate=True, get_logw draws the prior volumes of a run from their distribution, as run_std_simulate does repeatedly. (a) For every tolerance there is a number of live points such that, for every run which starts with at least that many, whose number of live points falls by at most one from each sample to the next and whose loglikelihoods are sorted, evidence with simulate=True returns a positive number with probability one, logz returns its logarithm, and the mean of its distance from evidence with simulate=False is at most the tolerance times the largest likelihood of the run. (b) For ideal adaptive samplers as in C95, with a generator which delivers uniform numbers independent of the sampler's, evidence with simulate=True converges in mean to the evidence, and logz with simulate=True converges in probability to its logarithm, as the number of points with which the samplers start tends to infinity.", "quantifier": "(a) all runs and all generators as described, all tolerances; (b) all measurable rules and stopping criteria, all sequences of numbers of points, all bounded loglikelihoods strictly decreasing with the enclosed volume, all orders of the rows, all sorting algorithms and settings", "why_tests_cant": "The claims are about the distribution of a random number for runs of every size, and about limits; tests can only look at a few draws for a few runs.", "anchors": ["nestcheck/ns_run_utils.py: get_logw, get_logx", "nestcheck/estimators.py: evidence, logz", "nestcheck/data_processing.py: process_samples_array"]}
{"id": "C99", "title": "Simulating the prior volumes leaves posterior means and credible bounds right", "statement": "For the samplers of C96 and a generator which delivers uniform numbers independent of the sampler's: as the number of points with which the samplers start tends to infinity, param_mean, param_squared_mean and r_mean with simulate=True converge in probability to the posterior means of the parameter, of its square and of the distance from the origin, under the conditions of C96; the largest share of a single sample in the sum of the simulated weights tends to zero in probability; and param_cred and r_cred with simulate=True converge in probability to the quantiles of the posterior distribution, under the conditions of C97.", "quantifier": "all measurable rules and stopping criteria, all sequences of numbers of points, all bounded loglikelihoods strictly decreasing with the enclosed volume, all spaces and distributions of spots, all parameters as in C96 and C97, all probabilities, tolerances, orders of the rows, sorting algorithms and settings", "why_tests_cant": "Convergence is a statement about infinitely many runs of unbounded size and about all posterior distributions; tests can only compare a few finite runs with a known posterior, within an error which they cannot bound.", "anchors": ["nestcheck/ns_run_utils.py: get_logw, get_logx, get_w_rel", "nestcheck/estimators.py: param_mean, param_squared_mean, r_mean, param_cred, r_cred, weighted_quantile", "nestcheck/data_processing.py: process_samples_array"]}
{"id": "C100", "title": "Infinite parameter values and the mean", "statement": "In floating point arithmetic as in C79, for a run as in C79 (samples of loglikelihood -inf allowed) and a parameter whose values are inf, -inf or bounded: param_mean is nan if a sample with an infinite value has a relative weight which underflows to zero, in particular if its loglikelihood is -inf, or if both infinities occur; otherwise it is inf or -inf if that value occurs, and if all values are finite it is finite and at most the number of samples times their bound. It never overflows. An array of values which is not as long as that of the loglikelihoods (neither of length one) is an error.", "quantifier": "all arithmetics of C79, all orders of summation, all runs, with expected or simulated prior volumes, all parameter values whose bound times the number of samples is an exact integer", "why_tests_cant": "Tests do not look at infinite values, and cannot show that no run with finite values yields nan or overflow in any order of summation.", "anchors": ["nestcheck/estimators.py: param_mean", "nestcheck/ns_run_utils.py: get_w_rel"]}
{"id": "C101", "title": "How far the evidence of a bootstrap replication is from that of the run", "statement": "For a run with a constant number n of live points (every thread starts from the whole prior, and the n live points at the end are removed without replacement) whose loglikelihoods are at most b, bootstrap_resample_run with independent uniform draws of the threads always succeeds, and the evidence of the replication differs from the evidence of the run on average by at most exp(b) ((sqrt(sum of squares of the numbers of samples each thread has among the first k) + sqrt(n) + 2) / n + exp(-k / n)), for every k.", "quantifier": "all runs with a constant number of live points, all numbers of samples and threads, ties included, with and without ninit_sep, all k", "why_tests_cant": "Tests compare bootstrap errors with a few stored numbers; they cannot bound the mean deviation of a replication for all runs.", "anchors": ["nestcheck/error_analysis.py: bootstrap_resample_run", "nestcheck/ns_run_utils.py: combine_threads, get_logx, get_logw", "nestcheck/estimators.py: evidence"]}
{"id": "C102", "title": "Bootstrap replications of the runs of ideal samplers converge to the evidence", "statement": "For ideal nested samplers with a constant number n of live points, which replace each point they remove by one point until they decide to stop and then remove the remaining points, and whose loglikelihood is bounded above by b: with probability one process_samples_array and bootstrap_resample_run (with independent uniform draws of the threads) succeed; the evidence of the replication differs from the evidence of the run on average by at most exp(b) ((5/2 + m + m^2) / sqrt(n) + 2 / n + exp(-m)) for every m; and as n grows the evidence of replications converges in mean to the true evidence and their logz in probability to its logarithm.", "quantifier": "all rules by which the sampler decides when to stop and all strictly monotone loglikelihoods with an upper bound, all numbers of live points and samples, all orders in which the samples are written, with and without ninit_sep", "why_tests_cant": "Tests compare bootstrap errors with a few stored numbers; they cannot show that replications of random runs converge to the right answer.", "anchors": ["nestcheck/error_analysis.py: bootstrap_resample_run", "nestcheck/data_processing.py: process_samples_array", "nestcheck/ns_run_utils.py: combine_threads, get_logx, get_logw", "nestcheck/estimators.py: evidence, logz"]}
{"id": "C103", "title": "Bootstrap errors of the runs of ideal samplers vanish", "statement": "For ideal nested samplers with a constant number of live points, as in C102, and a fixed number of replications each with independent uniform draws of its threads: as the number of live points grows, with probability tending to one run_bootstrap_values returns values of logz which are all as close as wanted to the logarithm of the evidence, run_std_bootstrap returns for logz a standard deviation which is as small as wanted, and run_ci_bootstrap returns for logz and every cred_int a number as close as wanted to the logarithm of the evidence, whatever other deterministic estimators are in the list, with and without flip_skew.", "quantifier": "all stopping rules, all strictly monotone loglikelihoods with an upper bound, all fixed numbers of replications, all lists of random seeds (including False and None), all lists of estimators containing logz, with and without ninit_sep and flip_skew", "why_tests_cant": "Tests check the shapes of these arrays and stored numbers of single runs; that the errors go to zero at all is a statement about limits.", "anchors": ["nestcheck/error_analysis.py: run_bootstrap_values, run_std_bootstrap, run_ci_bootstrap, bootstrap_resample_run", "nestcheck/estimators.py: logz", "nestcheck/data_processing.py: process_samples_array"]}
{"id": "C104", "title": "Options of the plotting functions", "statement": "plot_run_nlive, kde_plot_df, bs_param_dists, param_logx_diagram and plot_bs_dists raise TypeError for an option they do not know, before anything is drawn and before numpy's random state is saved or seeded; the only exception is kde_plot_df with nrows=0, which raises ZeroDivisionError first. Otherwise options which are given have the value given, others their documented default (100 simulations, seed 0, the first two columns of the samples as functions, limits -1 and 1 for each function, thread 0, ...), and the order of the options is irrelevant. bs_param_dists restores the random state whatever its options; param_logx_diagram does unless thin is given; and unless threads_to_plot is given param_logx_diagram never succeeds for more than three runs.", "quantifier": "all dictionaries of options, all runs, tables and random states", "why_tests_cant": "Tests call each function with one wrong option and a few right ones; the space of dictionaries is infinite, and that nothing happened before the exception is not observed.", "anchors": ["nestcheck/plots.py: plot_run_nlive, kde_plot_df, bs_param_dists, param_logx_diagram, plot_bs_dists"]}
{"id": "C105", "title": "Simulated errors of the runs of ideal samplers vanish", "statement": "For ideal nested samplers as in C98 and C99, whose number of live points may change in any way and which stop by any rule, and a generator of uniform random numbers independent of the sampler: as the number of points with which they start grows, the error which run_std_simulate gives for logz, evidence, param_mean, param_squared_mean, r_mean, param_cred or r_cred, from any fixed number of simulations (at least two), tends to zero in probability, whatever other deterministic estimators are in the list; and the function returns.", "quantifier": "all stopping rules, all strictly monotone loglikelihoods with an upper bound, all bounded quantities of the parameters (for means), all fixed numbers of simulations, all generators which deliver one stream of numbers, all lists of estimators", "why_tests_cant": "Tests check the shape of the result; that the errors go to zero at all is a statement about limits, and the simulations of one call share a stream whose blocks depend on the random length of the run.", "anchors": ["nestcheck/error_analysis.py: run_std_simulate", "nestcheck/ns_run_utils.py: run_estimators, get_logw, get_logx", "nestcheck/estimators.py: logz, evidence, param_mean, param_squared_mean, r_mean, param_cred, r_cred", "nestcheck/data_processing.py: process_samples_array"]}
{"id": "C106", "title": "The error summary of ideal samplers shows the true value and no implementation errors", "statement": "For the runs of any fixed number (at least two) of ideal nested samplers of the same likelihood, whose numbers of live points may change in any way and which stop by any rule: as the numbers of points with which they start grow, the table which run_list_error_summary gives shows for logz, evidence, param_mean, param_squared_mean, r_mean, param_cred or r_cred a mean of the values which tends in probability to the true value, and a standard deviation of the values, a root mean squared error and implementation errors (std and rmse) which tend to zero, whatever other deterministic estimators are in the list. For samplers with constant numbers of live points and logz alone the table is always returned.", "quantifier": "all numbers of runs, all stopping rules, all strictly monotone loglikelihoods with an upper bound, all bounded quantities of the parameters (for means), all numbers of bootstrap replications, all lists of estimators, all generators, serial and parallel evaluation in any order, samplers independent of each other or not", "why_tests_cant": "Tests compare tables of toy runs with stored numbers; that perfect samplers show no implementation error is a statement about limits of random tables.", "anchors": ["nestcheck/diagnostics_tables.py: run_list_error_summary, run_list_error_values, error_values_summary", "nestcheck/error_analysis.py: implementation_std, run_bootstrap_values", "nestcheck/pandas_functions.py: summary_df_from_multi, summary_df", "nestcheck/data_processing.py: process_samples_array"]}
{"id": "C107", "title": "summary_df_from_multi keeps any levels of the index", "statement": "For a DataFrame whose index has any distinct levels and any nonempty choice of levels to keep (by default all but the last), in any order: summary_df_from_multi returns the summaries of exactly the groups of rows which agree at these levels, in ascending order of the groups, each row with the kept levels, then 'calculation type' and 'result type'; a kept 'calculation type' is joined in front of that of the summary ('values mean'), and the level then stands behind all other kept ones. True values are added once, at the end, under 'true values' and empty strings. No two rows have the same index. The caller's DataFrame keeps its level names and rows. A level which the index does not have raises KeyError, no level ValueError, a group with one row ZeroDivisionError, true values which are asked for but missing AssertionError. For the tables of run_list_error_values it is the function used in run_list_error_summary.", "quantifier": "all level names and values (strings), all numbers of levels, groups, rows and columns, all orders of inds_to_keep, all real cells (for the refinement also nan)", "why_tests_cant": "Tests use one small MultiIndex with the default levels; renaming, joining and reordering of levels is a property of all indexes.", "anchors": ["nestcheck/pandas_functions.py: summary_df_from_multi, summary_df", "nestcheck/diagnostics_tables.py: error_values_summary"]}
{"id": "C108", "title": "Posterior estimates of combined runs converge for adaptive samplers", "statement": "Several ideal nested samplers run independently; each may choose its points adaptively (dynamic nested sampling) and has its own rule, its own starting points and its own stopping condition. Their samples are processed separately and the runs are combined with combine_ns_runs. As the total number of starting points grows (more live points, more runs, or both), the probability that some run is not processed, the runs are not combined, or the estimate of the combined run differs from the true value by a given amount or more tends to zero: for logz the true value is the log evidence, for param_mean, param_squared_mean and r_mean the posterior mean of the quantity, for param_cred and r_cred its posterior quantile. The same holds for the estimates with simulated prior volumes (simulate=True). Almost surely the samplers have such executions, and the combined run has the points and the numbers of live points of a single run of one adaptive sampler.", "quantifier": "all numbers of samplers, all adaptive rules which add at most one point when the first point is removed, all strictly decreasing loglikelihood functions of the prior volume bounded above, all bounded (for quantiles: all measurable) parameters, all orders of the samples in the files, all options of the checks for duplicates", "why_tests_cant": "Convergence in probability for all rules and likelihoods can not be observed in finitely many runs; unit tests combine two small runs.", "anchors": ["nestcheck/ns_run_utils.py: combine_ns_runs, combine_threads", "nestcheck/data_processing.py: process_samples_array", "nestcheck/estimators.py: logz, param_mean, param_squared_mean, param_cred, r_mean, r_cred"]}
{"id": "C109", "title": "Input of the wrong shape is rejected with a definite exception", "statement": "Input whose parts do not fit together gives no result, but an exception of a kind a caller can rely on. combine_ns_runs: ValueError for no runs, and for valid runs with different numbers of parameters. get_run_threads: ValueError for members of different lengths, IndexError for a run without samples, AttributeError for a run without thread labels or thread_min_max. process_dynesty_run: ValueError for different numbers of samples, loglikelihoods and thread numbers. process_multinest_run: IndexError for a file with one row or column, ValueError for dead and live points with different numbers of parameters. get_logx, get_logw, get_w_rel and all estimators but count_samples: ValueError for a run without samples. Given log weights whose number is not that of the samples: ValueError from the means, AssertionError from the quantiles. get_dummy_thread: IndexError for no samples. efficiency_gain_df: AssertionError if the numbers of methods, names and sample counts differ, ValueError for no methods and for repeated or empty names. plot_run_nlive: ValueError without runs. bs_param_dists: IndexError for more than five runs. param_logx_diagram: IndexError without functions, NameError without runs. kde_plot_df: ValueError without columns.", "quantifier": "all runs, results objects, files, tables, options and random states with the stated fault", "why_tests_cant": "There are infinitely many ways in which the lengths of the parts of an input can disagree; the tests try one or two of them for each function.", "anchors": ["nestcheck/ns_run_utils.py: combine_ns_runs, get_run_threads, array_given_run, get_logx, get_logw, get_w_rel", "nestcheck/data_processing.py: process_dynesty_run, process_multinest_run", "nestcheck/estimators.py: logz, evidence, param_mean, param_cred, param_squared_mean, r_mean, r_cred", "nestcheck/dummy_data.py: get_dummy_thread", "nestcheck/pandas_functions.py: efficiency_gain_df", "nestcheck/plots.py: plot_run_nlive, bs_param_dists, param_logx_diagram, kde_plot_df"]}
{"id": "C110", "title": "Parameters can be counted from the end, and handle_indexerror catches exactly the parameters that do not exist", "statement": "For a run whose samples have d parameters, param_mean, param_cred and param_squared_mean with param_ind=-k (k from 1 to d) are the same functions as with param_ind=d-k. For param_ind >= d and for param_ind < -d they raise IndexError (after the weights have been computed, so simulated weights have been drawn); param_mean with handle_indexerror=True returns nan instead.", "quantifier": "all runs with samples of d parameters, all d, all integers param_ind, all weights, probabilities and random states", "why_tests_cant": "Unit tests use param_ind=0 and 1 and one value which is too large; what a negative index means for every dimension is not tested.", "anchors": ["nestcheck/estimators.py: param_mean, param_cred, param_squared_mean"]}
{"id": "C111", "title": "Accuracy of evidence, param_squared_mean and r_mean in floating point arithmetic", "statement": "If every floating point operation has a relative error of at most u and, if it underflows, an absolute error of at most e (the standard model, as in C84; also for exp of positive numbers and sqrt), then evidence, param_squared_mean and r_mean as computed from a run with expected (not simulated) prior volumes succeed, unless the evidence overflows, and differ from their exact values by at most explicit bounds; the bound for evidence is relative to the evidence. The order in which the squares of a row of theta are added may differ from that of other sums. In particular for 64 bit floats with correctly rounded exp, log and sqrt and runs as in C84: evidence up to 10^300 has a relative error of at most 0.0002 (unless it underflows), param_squared_mean an error of at most 0.0001 T^2 for parameters of size at most T (1 <= T <= 10^100), and r_mean of at most 0.0001 B for radii of at most B (1 <= B <= 10^100) with up to a million parameters. Without rounding the models agree.", "quantifier": "all arithmetics meeting the standard model, all runs whose size fits the precision, all orders of summation (in rows and in weighted sums), all numbers of parameters", "why_tests_cant": "Tests compare a few results with tolerances chosen by hand; they cannot bound the rounding error of squares, square roots and normalised weights over all runs.", "anchors": ["nestcheck/estimators.py: evidence, param_squared_mean, r_mean", "nestcheck/ns_run_utils.py: get_logw"]}
{"id": "C112", "title": "Accuracy with simulated prior volumes in floating point arithmetic", "statement": "If every floating point operation has a relative error of at most u and, if it underflows, an absolute error of at most e (the standard model, as in C84 and C111), then get_logw, logz, evidence, param_mean, param_squared_mean and r_mean with simulate=True succeed (evidence unless it overflows) and differ by at most explicit bounds from what exact arithmetic gives for the same random numbers. The bounds depend on the smallest step log(u_i)/n_i that was drawn, because a prior volume is a difference of neighbouring ones, on the total of the steps and on the smallest random number. In particular for 64 bit floats with correctly rounded exp and log, at most 10000 samples, random numbers from 2^-53 to below one, steps of at least 10^-6 adding up to at most 100 and loglikelihoods of at most 10^6 in size: log weights and logz are wrong by at most 0.004, and param_mean by at most 0.004 T for parameters of size at most T (1 <= T <= 10^9). Without rounding the models agree.", "quantifier": "all arithmetics meeting the standard model, all runs, all random numbers whose steps fit the precision, all orders of summation", "why_tests_cant": "Simulated weights differ on each call, so tests can compare them only with fixed seeds and tolerances chosen by hand; the error depends on the smallest step drawn.", "anchors": ["nestcheck/ns_run_utils.py: get_logx, get_logw", "nestcheck/estimators.py: logz, evidence, param_mean, param_squared_mean, r_mean"]}
{"id": "C113", "title": "nan among loglikelihoods or birth contours is refused", "statement": "If a loglikelihood of the samples is nan, process_samples_array and dict_given_run_array raise AssertionError and leave the random state and the warnings unchanged, and so does check_ns_run. If a birth contour is nan, process_samples_array raises AssertionError, and check_ns_run does if an entry of thread_min_max is nan. Hence process_polychord_run and process_multinest_run raise AssertionError for readable files with nan in a column of loglikelihoods or birth contours. process_dynesty_run never returns a run for results with nan among the loglikelihoods (AssertionError for static runs), nor one with nan in thread_min_max. If neither contains nan, the results, exceptions, warnings and random numbers of process_samples_array, check_ns_run, dict_given_run_array and process_dynesty_run are those for the same numbers, and each sample keeps its parameters, even when there is nan among the parameters; the same holds for process_multinest_run and process_polychord_run and files without nan.", "quantifier": "all arrays of numbers and nan, all sorts that put nan last, all random number generators and states, all settings for repeated loglikelihoods", "why_tests_cant": "nan is sorted to the end and every comparison with it is false, so that a check written the other way round (for instance raising if birth > logl) would let it pass; a test tries a few positions only.", "anchors": ["nestcheck/ns_run_utils.py: check_ns_run, check_ns_run_logls, check_ns_run_threads, dict_given_run_array", "nestcheck/data_processing.py: process_samples_array, birth_inds_given_contours, process_polychord_run, process_multinest_run, process_dynesty_run"]}
{"id": "C114", "title": "nan among the parameters", "statement": "If a sample has nan as a parameter, estimators of other parameters (param_mean, param_squared_mean, param_cred) are unchanged whatever stands there; without nan every estimator gives what it gives for numbers. param_mean and param_squared_mean of the parameter are nan however small the weight of the sample, and r_mean is nan if any parameter of any sample is. weighted_quantile, and so param_cred, does not follow: it counts nan as larger than all numbers. The bound is nan if the probability exceeds the share of the numbers in the total weight, and a number if it is below this share by at least half of the largest weight; this number is the bound with nan replaced by any value above all others.", "quantifier": "all runs and parameters with nan anywhere, all weights (given or computed, simulated or not), all probabilities, all sorts that put nan last", "why_tests_cant": "Whether a credible bound is nan depends on the weights of the samples with nan; a test with nan samples sees one of the two outcomes.", "anchors": ["nestcheck/estimators.py: param_mean, param_cred, param_squared_mean, r_mean, r_cred, weighted_quantile"]}
{"id": "C115", "title": "Any dead-birth array gives a valid run, AssertionError or ValueError", "statement": "For every array of numbers with at least one sample - duplicate loglikelihoods, unknown birth contours, more births than deaths on a contour - process_samples_array terminates and either returns a run or raises AssertionError or ValueError (IndexError for an empty array); it raises exactly when birth_inds_given_contours does for the sorted samples, with the same exception, as the division into threads never fails after that. A run which is returned, with or without warnings, consists of all the samples in ascending order and passes check_ns_run with the same options. A thread starts at -inf if its first sample shares the birth contour of the lowest sample, otherwise at the birth contour of its first sample, and nlive_array is the number of threads started minus the number of threads ended, for birth steps which are samples on the birth contours. AssertionError has one of three causes: duplicate loglikelihoods with dup_assert, a birth contour above the sample's own loglikelihood, or a birth contour on which no sample died and which is not that of the lowest sample; ValueError has one: two samples on the same contour, one of them also born there. If every sample was born strictly below its own loglikelihood, the array is processed exactly if all birth contours but one (that of the prior) are loglikelihoods of samples, and AssertionError is raised otherwise; then, even with more births than deaths on a contour, there is at least one live point at every sample, and where a loglikelihood first occurs nlive_array is the exact number of samples born strictly below it and dying at or above it. From such a run the package's estimators of any number of parameters are computed with expected and simulated weights and for each thread, without exceptions and without nan; its threads ascend strictly; and all of them start from the whole prior exactly if on no contour more samples were born than died there, in which case the bootstrap error estimates are also computed without exceptions and without nan. Without this condition, and with a warning, the number of live points can be 0 at a sample.", "quantifier": "all arrays of numbers, all sorts, all random number generators meeting the contract of numpy.random, both duplicate options, all warnings", "why_tests_cant": "The claim is about malformed files and random choices between duplicates; tests try a few files with one seed.", "anchors": ["nestcheck/data_processing.py: process_samples_array, birth_inds_given_contours, sample_less_than_condition, threads_given_birth_inds", "nestcheck/ns_run_utils.py: check_ns_run"]}
{"id": "C116", "title": "Values saved with any extension are loaded again, and no other file changes", "statement": "pickle_save(data, name, extension=ext) followed by pickle_load(name, extension=ext) returns data if the file is new or overwritten, for every ext; so does pickle_load with any other split of the same file name, and what is loaded from every other file is as before. With overwrite_existing=False and an existing file, that file is kept and the data can be loaded with the time appended to the name and the same extension, if the extension contains no slash. With a slash the directory may be missing, and the data is lost with only a warning. Whatever fails in the operating system, at most the target file changes, and loading it then gives the new value, what it gave before, EOFError or UnpicklingError, but never another value. The default extension is '.pkl'.", "quantifier": "all names, extensions, values, disks, times and faults of the operating system", "why_tests_cant": "Tests save and load one value with the default extension.", "anchors": ["nestcheck/io_utils.py: pickle_save, pickle_load"]}
