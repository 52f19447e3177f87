{
 "claims": [
  {
   "property": "C01",
   "status": "proved",
   "theorems": [
    "Verif.Vprec.C01_round_nearest_even"
   ],
   "note": "Both formats, every range and precision, strict and wrapping shift semantics (full mantissa precision only under wrapping)."
  },
  {
   "property": "C02",
   "status": "proved",
   "theorems": [
    "Verif.Vprec.C02_gradual_underflow",
    "Verif.Vprec.C02_half_unit_tie_not_even"
   ],
   "note": "Nearest everywhere; ties to even except at exactly half the smallest subnormal, which the second theorem shows goes away from zero."
  },
  {
   "property": "C03",
   "status": "proved",
   "theorems": [
    "Verif.Vprec.C03_result_in_format",
    "Verif.Vprec.C03_result_defined"
   ],
   "note": ""
  },
  {
   "property": "C04",
   "status": "proved",
   "theorems": [
    "Verif.Vprec.C04_idempotent"
   ],
   "note": ""
  },
  {
   "property": "C05",
   "status": "proved",
   "theorems": [
    "Verif.Vprec.C05_monotone"
   ],
   "note": ""
  },
  {
   "property": "C06",
   "status": "partial",
   "theorems": [
    "Verif.Vprec.C06_special_unchanged",
    "Verif.Vprec.C06_sign_symmetry_partial",
    "Verif.Vprec.C06_zero_sign_lost"
   ],
   "note": "Symmetry holds for results that do not underflow to zero; the sign of an underflowed zero is lost, C06_zero_sign_lost is the counterexample."
  },
  {
   "property": "C07",
   "status": "partial",
   "theorems": [
    "Verif.Vprec.C07_transparent_partial",
    "Verif.Vprec.C07_default_config_undefined"
   ],
   "note": "Identity when shift counts wrap; under the C standard the default configuration shifts by a negative amount, C07_default_config_undefined."
  },
  {
   "property": "C08",
   "status": "partial",
   "theorems": [
    "Verif.Vprec.C08_grid",
    "Verif.Vprec.C08_abs_error_normal_partial",
    "Verif.Vprec.C08_abs_error_subnormal_partial",
    "Verif.Vprec.C08_error_partial",
    "Verif.Vprec.C08_result_defined",
    "Verif.Vprec.C08_subnormal_flushed"
   ],
   "note": "Holds in the normal range and for thresholds at least the smallest normal number (C08_error_partial, both modes and all numbers below 2^emax); every input has a result with the shifts of the processor (C08_result_defined); false below, C08_subnormal_flushed."
  },
  {
   "property": "C09",
   "status": "proved",
   "theorems": [
    "Verif.Vprec.Ops.C09_modes",
    "Verif.Vprec.Ops.C09_ieee_exact",
    "Verif.Vprec.Ops.C09_defined",
    "Verif.Vprec.Ops.C09_default_transparent"
   ],
   "note": "Hardware operations are arbitrary functions."
  },
  {
   "property": "C10",
   "status": "partial",
   "theorems": [
    "Verif.Vprec.Config.C10_limits_invariant",
    "Verif.Vprec.Config.C10_call_accepts",
    "Verif.Vprec.Config.C10_presets",
    "Verif.Vprec.Config.C10_cli_modes",
    "Verif.Vprec.Config.C10_configure",
    "Verif.Vprec.Config.C10_cli_partial",
    "Verif.Vprec.Config.C10_cli_truncation",
    "Verif.Vprec.Config.C10_preset_binary64_refused"
   ],
   "note": "The limits are an invariant of every history; \"a request outside the limits never changes the configuration\" is false on the command line for values that wrap modulo 2^32, C10_cli_truncation."
  },
  {
   "property": "C100",
   "status": "partial",
   "theorems": [
    "Verif.Pass.C100_loops_partial",
    "Verif.Pass.C100_agree_partial",
    "Verif.Pass.C100_sum_partial"
   ],
   "note": "Proved for all programs of scalars of one type without casts and fused operations, values passing between blocks in registers and memory, without --inst-fcmp, for all backends that meet the signed error contract of C98 or the relative contract of C96 (IEEE, MCA, integer MCA, VPREC, bitmask). Mixed types, phi nodes and --inst-fcmp are in C102, the cancellation backend in C112."
  },
  {
   "property": "C101",
   "status": "partial",
   "theorems": [
    "Verif.Ddtool.C101_search_partial",
    "Verif.Ddtool.C101_ddmax_partial",
    "Verif.Ddtool.C101_files",
    "Verif.Ddtool.C101_processes_wrong",
    "Verif.Ddtool.C101_unvisited_wrong",
    "Verif.Ddtool.C101_cache_wrong",
    "Verif.Ddtool.C101_fma_wrong"
   ],
   "note": "Proved for one deterministic process whose call sites are at fixed addresses, when md5 does not collide on its configurations, the IEEE backend computes what the machine does, and the samples run in sequence. False otherwise: all processes of the reference run write the same file dd.line.%%p; operations done only in perturbed runs are never perturbed; results of an earlier invocation are reused after the program has changed; with --inst-fma the machine rounds twice what the reference run rounds once, and every search stops."
  },
  {
   "property": "C102",
   "status": "partial",
   "theorems": [
    "Verif.Pass.Mix.C102_mixed_partial",
    "Verif.Pass.Mix.C102_meets",
    "Verif.Pass.Mix.C102_agree_partial",
    "Verif.Pass.Mix.C102_dot_partial",
    "Verif.Pass.Mix.ieee_compares",
    "Verif.Pass.Mix.C102_typed"
   ],
   "note": "Proved for all programs of scalars of both types with any of the options --inst-fma, --inst-cast and --inst-fcmp, for all backends that compare as the machine does (the IEEE backend, the only one with comparisons) and meet the signed error contract of C98 for each type and its contract for conversions (IEEE, MCA, integer MCA, VPREC, bitmask), on a machine that rounds to nearest. Vectors are in C113. Missing: phi nodes of one block that read one another; the cancellation backend, absolute errors and underflow are in C112."
  },
  {
   "property": "C103",
   "status": "partial",
   "theorems": [
    "Verif.Cli.C103_scan",
    "Verif.Cli.C103_unique",
    "Verif.Cli.C103_mca",
    "Verif.Cli.C103_bitmask",
    "Verif.Cli.C103_cancel",
    "Verif.Cli.C103_ieee",
    "Verif.Cli.C103_vprec",
    "Verif.Cli.C103_vfi",
    "Verif.Cli.C103_vfi_modes",
    "Verif.Cli.C103_valid",
    "Verif.Cli.C103_defined",
    "Verif.Cli.C103_mca_meaning",
    "Verif.Cli.C103_bitmask_meaning",
    "Verif.Cli.C103_cancel_meaning",
    "Verif.Cli.C103_mca_words",
    "Verif.Cli.C103_stray_wrong",
    "Verif.Cli.C103_stray_refused",
    "Verif.Cli.C103_abbreviated",
    "Verif.Cli.C103_vprec_meaning",
    "Verif.Cli.C103_environment"
   ],
   "note": "Proved for all lists of words: what is read, and that the backend is configured by exactly that or the process ends. False of words that are no options: the key of --precision-binary32 is 0, which is ARGP_KEY_ARG, so that MCA, integer MCA, bitmask and VPREC take every stray word for the precision of floats, after all options; cancellation and IEEE refuse them. argp_parse of the GNU C library is modelled from its documentation and was compared with the library on 3000 random command lines; what init does after the command line is elsewhere."
  },
  {
   "property": "C104",
   "status": "partial",
   "theorems": [
    "Verif.Cli.C104_meets_partial",
    "Verif.Cli.C104_program_partial",
    "Verif.Cli.C104_compare",
    "Verif.Cli.C104_ieee_partial",
    "Verif.Cli.C103_vprec_meaning",
    "Verif.Cli.C104_vprec_environment",
    "Verif.Cli.C104_vprec_dot_partial",
    "Verif.Cli.C104_limits_meets_partial",
    "Verif.Cli.C104_limits_partial",
    "Verif.Cli.C104_vector_partial"
   ],
   "note": "Proved for every environment with which a process starts when the last backend is IEEE, VPREC, integer MCA or MCA (from precision 2 on and never drawing one half, C21), cancellation (tolerance at least 1), or bitmask with both precisions applied; absolute errors, flushed subnormals and underflow by C104_limits_partial, where absolute errors of conversions are up to 2^126 in VPREC and 2^124 in MCA. Programs as in C102: scalars, any options of the compiler (a process with --inst-fcmp only starts when an IEEE backend does the comparisons, C104_compare). Vectors are in C113."
  },
  {
   "property": "C105",
   "status": "partial",
   "theorems": [
    "Verif.Vtk.C105_digits_partial",
    "Verif.Vtk.C105_std",
    "Verif.Vtk.C105_equal",
    "Verif.Vtk.C105_missing",
    "Verif.Vtk.C105_merge_partial",
    "Verif.Vtk.C105_directory",
    "Verif.Vtk.C105_negative_wrong",
    "Verif.Vtk.C105_copy_wrong",
    "Verif.Vtk.C105_first_wrong",
    "Verif.Vtk.C105_double_wrong",
    "Verif.Vtk.C105_unnamed_wrong",
    "Verif.Vtk.C105_duplicate_wrong",
    "Verif.Vtk.C105_points_wrong",
    "Verif.Vtk.C105_again_wrong",
    "Verif.Vtk.C105_reference_wrong"
   ],
   "note": "Proved for exact arithmetic, for arrays of positive mean, files whose Float32 arrays have different names, and an XML library whose elements have a method copy. False otherwise: a negative mean gives 0 digits whatever the traces, exact zeros have 0 digits; the C elements of Python 3 have no method copy, so that no file with a Float32 array is ever merged; arrays of doubles are ignored; of arrays with one name the first is done twice; unnamed arrays and coordinates without PointData raise; -r never works; the output directory stays after an exception and prevents the next run."
  },
  {
   "property": "C106",
   "status": "partial",
   "theorems": [
    "Verif.Ci.Views.C106_step_partial",
    "Verif.Ci.Views.C106_visit_partial",
    "Verif.Ci.Views.C106_repository_partial",
    "Verif.Ci.Views.C106_imports",
    "Verif.Ci.Views.C106_variable",
    "Verif.Ci.Views.C106_start_wrong",
    "Verif.Ci.Views.C106_repository_wrong",
    "Verif.Ci.Views.C106_filter_wrong",
    "Verif.Ci.Views.C106_variable_wrong",
    "Verif.Ci.Views.C106_outliers_wrong"
   ],
   "note": "Proved of the callbacks for all sequences of selections within one repository. False of the report: compare_runs.py uses figure of bokeh without importing it, so that the report never starts; a repository with the same tests keeps the variables of the one before; the text filter searches the tests of the first repository; another test forgets the variable; the outliers filter of the deterministic view reads a key that does not exist. Bokeh is modelled by the rule that assigning a different value calls the callback."
  },
  {
   "property": "C107",
   "status": "partial",
   "theorems": [
    "Verif.Ci.Inspect.C107_step_partial",
    "Verif.Ci.Inspect.C107_visit_partial",
    "Verif.Ci.Inspect.C107_repository_partial",
    "Verif.Ci.Inspect.C107_names",
    "Verif.Ci.Inspect.C107_run_wrong",
    "Verif.Ci.Inspect.C107_repository_wrong",
    "Verif.Ci.Inspect.C107_names_wrong"
   ],
   "note": "Proved for all sequences of selections of runs that have rows, in exact arithmetic, and for a change to a repository whose last run has another name. False otherwise: selecting a run with only deterministic backends raises; a repository whose last run has the name of the selected one is looked up with the old timestamp; names of more than 39 characters are cut in the middle and may coincide."
  },
  {
   "property": "C108",
   "status": "partial",
   "theorems": [
    "Verif.Vfi.C108_transparent",
    "Verif.Vfi.C108_read_partial",
    "Verif.Vfi.C108_calls_partial",
    "Verif.Vfi.C108_values_partial",
    "Verif.Vfi.C108_first_wrong",
    "Verif.Vfi.C108_null_wrong",
    "Verif.Vfi.C108_pointer_wrong",
    "Verif.Vfi.C108_beyond_wrong"
   ],
   "note": "Proved for all well nested runs without hash collisions, with names without tabs and newlines; that the log changes nothing for all arguments whose memory has the declared size, what it says for arguments of scalar types. False otherwise: the first call shows the format (0, 0) for the one its record gets; the line of a null pointer is not ended; lines of pointers begin several times and show elements as rounded that never are; and the log reads the declared elements of a pointer, of which the hooks without log only use the first."
  },
  {
   "property": "C109",
   "status": "partial",
   "theorems": [
    "Verif.Ddtool.C109_lookup",
    "Verif.Ddtool.C109_test",
    "Verif.Ddtool.C109_uncached",
    "Verif.Ddtool.C109_subset_partial",
    "Verif.Ddtool.C109_superset_partial",
    "Verif.Ddtool.C109_monotone_partial",
    "Verif.Ddtool.C109_order_wrong",
    "Verif.Ddtool.C109_subset_wrong",
    "Verif.Ddtool.C109_superset_wrong",
    "Verif.Ddtool.C109_superset_raises",
    "Verif.Ddtool.C109_monotony_raises"
   ],
   "note": "Proved for configurations as lists. False of sets: add makes a sorted copy and does not use it, so the same deltas in another order are run again. lookup_subset and lookup_superset answer only outcomes of the configurations they should, but miss some, and lookup_superset indexes dict.keys(), a TypeError in Python 3, whenever its argument is the beginning of an entry: with monotony a search raises at its second test."
  },
  {
   "property": "C11",
   "status": "partial",
   "theorems": [
    "Verif.Vfi.C11_scoped_partial",
    "Verif.Vfi.C11_other_modes",
    "Verif.Vfi.C11_library",
    "Verif.Vfi.C11_leak"
   ],
   "note": "For call stacks without a floating-point-free function between two floating-point ones and identifiers without hash collision; false otherwise: on return from the callee the caller keeps the precision of another function (C11_leak)."
  },
  {
   "property": "C110",
   "status": "proved",
   "theorems": [
    "Verif.Ddtool.C110_dddiff",
    "Verif.Ddtool.C110_sets",
    "Verif.Ddtool.C110_object",
    "Verif.Ddtool.C110_order_wrong"
   ],
   "note": "C110_dddiff is for tests of lists, where some order of the two configurations passes and fails; C110_order_wrong shows that the lists returned themselves need not. _resolve is the stub that no class overrides."
  },
  {
   "property": "C111",
   "status": "partial",
   "theorems": [
    "Verif.Ddtool.C111_ddgen_partial",
    "Verif.Ddtool.C111_ddmin",
    "Verif.Ddtool.C111_ddmax_partial",
    "Verif.Ddtool.C111_object",
    "Verif.Ddtool.C111_ddmax_wrong"
   ],
   "note": "Proved for ddmin, and for ddmax and ddmix when no part of the deltas passes together with its rest, or with VERROU_DD_UNSAFE. False otherwise: the loop tests its candidate in every round and ends with an error when it passes, also when it is searched by its rest. The searches of the tool itself (C40, C41) are others."
  },
  {
   "property": "C112",
   "status": "partial",
   "theorems": [
    "Verif.Pass.Mix.Gen.C112_partial",
    "Verif.Pass.Mix.Gen.C112_meets",
    "Verif.Pass.Mix.Gen.C112_ieee_partial",
    "Verif.Pass.Mix.Gen.C112_cancellation_partial",
    "Verif.Pass.Mix.Gen.C112_vprec_partial",
    "Verif.Pass.Mix.Gen.C112_quad_partial",
    "Verif.Pass.Mix.Gen.C112_int_partial",
    "Verif.Pass.Mix.Gen.C112_bitmask_partial",
    "Verif.Pass.Mix.Gen.C112_cast_ieee",
    "Verif.Pass.Mix.Gen.C112_cast_cancellation",
    "Verif.Pass.Mix.Gen.C112_cast_vprec_partial",
    "Verif.Pass.Mix.Gen.C112_cast_quad_partial",
    "Verif.Pass.Mix.Gen.C112_cast_int_partial",
    "Verif.Pass.Mix.Gen.C112_cast_bitmask_partial",
    "Verif.Pass.Mix.Gen.signed_abs"
   ],
   "note": "Proved for all programs as in C102 (scalars of both types) and any backends that meet the contract; all contracts of C98 are included (signed_abs). The cancellation backend with a tolerance of at least 1 and a generator that never draws one half; in double, sums must be so large that the noise is in range (false otherwise, C26). VPREC with the shifts of the processor and a threshold that is a normal number of the formats (false otherwise, C08). Both MCA backends in every mode, with every error mode and with flushed subnormals, from precision 2 on; bitmask in every mode, with flushed subnormals, when its precisions are applied; conversions by all of them. Vectors are in C113. Missing: phi nodes of one block that read one another."
  },
  {
   "property": "C113",
   "status": "partial",
   "theorems": [
    "Verif.Pass.Mix.Vec.C113_passed",
    "Verif.Pass.Mix.Vec.C113_partial",
    "Verif.Pass.Mix.Vec.C113_relative_partial",
    "Verif.Pass.Mix.Vec.C113_vectorized_partial",
    "Verif.Cli.C104_vector_partial"
   ],
   "note": "Proved for all programs with the statements of C102 and sums, differences, products and quotients of vectors, and instructions that build, shuffle, load, store and take apart vectors; behind the backends of VFC_BACKENDS by C104_vector_partial. False of vectors of two floats, which x86-64 passes as a double and the pass does not instrument (C89_coerced_wrong). Missing: comparisons of vectors."
  },
  {
   "property": "C114",
   "status": "partial",
   "theorems": [
    "Verif.Pass.Mean.C114_partial",
    "Verif.Pass.Mean.C114_program_partial",
    "Verif.Pass.Mean.average_eq",
    "Verif.Pass.Mean.C114_false"
   ],
   "note": "For expressions of any size of additions, subtractions and multiplications whose results are used once, evaluated by the integer backend and returned by the compiled function. The words are taken independent and uniform: the generator of the backend is not modelled as random. False when a result is used twice (C114_false): the mean of a square exceeds the square of the mean by the variance. Missing: division, products below the normal range, the quad backend."
  },
  {
   "property": "C115",
   "status": "partial",
   "theorems": [
    "Verif.Pass.Mean.C115_partial",
    "Verif.Pass.Mean.C115_program_partial"
   ],
   "note": "For expressions of any size of additions, subtractions and multiplications whose results are used once, evaluated by the integer backend and returned by the compiled function. The words are taken independent and uniform. The average is the plain one (average_eq of C114). Missing: division, results that are used twice, products below the normal range, the quad backend."
  },
  {
   "property": "C116",
   "status": "partial",
   "theorems": [
    "Verif.Ci.Setup.C116_forward",
    "Verif.Ci.Setup.C116_refused",
    "Verif.Ci.Setup.C116_checked",
    "Verif.Ci.Setup.C116_setup_partial",
    "Verif.Ci.Setup.C116_only_workflow_partial",
    "Verif.Ci.Setup.C116_untracked_wrong",
    "Verif.Ci.Setup.C116_rerun_wrong",
    "Verif.Ci.Setup.C116_stale_wrong",
    "Verif.Ci.Setup.C116_readme_wrong",
    "Verif.Ci.Setup.C116_upstream_wrong"
   ],
   "note": "That no commit is lost, that refused runs change nothing, and what the others start from is proved for all repositories. What a finished run publishes is proved for a first setup of a branch that tracks a branch of the same name; that only the workflow is published is false when there are untracked files, which the check does not see, and the rest is false when the branch of the results is already there (its files are taken off its tip, or the push is rejected without a word), when an ignored README.md is there (it is lost), and when the upstream has another name (the push fails after the commit). Git and GitPython are modelled by the effects of the commands used."
  },
  {
   "property": "C117",
   "status": "partial",
   "theorems": [
    "Verif.Probes.C117_same_partial",
    "Verif.Probes.C117_file_partial",
    "Verif.Probes.C117_no_check",
    "Verif.Probes.C117_unterminated",
    "Verif.Probes.C117_direct_wrong",
    "Verif.Probes.C117_names_wrong",
    "Verif.Probes.C117_number_wrong"
   ],
   "note": "Proved for names that end with a NUL, which the program has to add, and probes without checks. False otherwise: names without a NUL go on with what is behind them in memory, the interface has no function that makes a check, and the number of probes is read with 64 bits of which C sets 32."
  },
  {
   "property": "C118",
   "status": "partial",
   "theorems": [
    "Verif.Ddtool.Stat.C118_elapsed_partial",
    "Verif.Ddtool.Stat.C118_counted",
    "Verif.Ddtool.Stat.C118_runs_partial",
    "Verif.Ddtool.Stat.C118_second_wrong",
    "Verif.Ddtool.Stat.C118_link_wrong",
    "Verif.Ddtool.Stat.C118_tick_wrong"
   ],
   "note": "The printed time is at most the elapsed time and less than two seconds below it; it can be a whole second short (C118_second_wrong). The runs are counted right without links; the runs of a set found are counted again for every link to it (C118_counted, C118_link_wrong), and a run of the first clock tick may be missed (C118_tick_wrong). Times are rational numbers."
  },
  {
   "property": "C119",
   "status": "partial",
   "theorems": [
    "Verif.Ci.Args.C119_accepts",
    "Verif.Ci.Args.C119_read_partial",
    "Verif.Ci.Args.C119_zero_wrong"
   ],
   "note": "What is accepted is proved for all words; what the report reads for texts that the command keeps (C76). False of --ignore-recent 0, the default by the help, which is refused. The words are taken as attributed to the options by argparse, and int() without underscores between digits."
  },
  {
   "property": "C12",
   "status": "partial",
   "theorems": [
    "Verif.Vfi.C12_round_trip_partial",
    "Verif.Vfi.C12_prescribed_partial",
    "Verif.Vfi.C12_end_of_file_undefined",
    "Verif.Vfi.C12_long_identifier",
    "Verif.Vfi.C12_empty_identifier",
    "Verif.Vfi.C12_null_arguments"
   ],
   "note": "Round trip for tables of any size with non-empty identifiers up to 255 characters, provided the uninitialised buffer tokenised at the end of file does not look like a record; counterexamples for the rest."
  },
  {
   "property": "C120",
   "status": "partial",
   "theorems": [
    "Verif.Ddtool.Links.C120_partial",
    "Verif.Ddtool.Links.C120_links",
    "Verif.Ddtool.Links.C120_kept",
    "Verif.Ddtool.Links.C120_stale_wrong",
    "Verif.Ddtool.Links.C120_single_wrong",
    "Verif.Ddtool.Links.C120_union_wrong"
   ],
   "note": "Proved for a new directory, sets reported as RDDMin and SRDDMin do, whatever is tested in between, and md5 without collisions. False in the directory of an earlier search: links of numbers that are not reached stay (C120_stale_wrong), and after a change of the program the union of the culprits is read from files written before it (C120_union_wrong). False of the default algorithm, DRDDMin, on a program with one line, whose set is never reported (C120_single_wrong)."
  },
  {
   "property": "C13",
   "status": "partial",
   "theorems": [
    "Verif.Vfi.C13_enter_partial",
    "Verif.Vfi.C13_exit_partial",
    "Verif.Vfi.C13_enter_unrounded",
    "Verif.Vfi.C13_second_element"
   ],
   "note": "False for arrays: only the first element is rounded. Scalars and first elements are rounded as profiled on entry and exit."
  },
  {
   "property": "C14",
   "status": "partial",
   "theorems": [
    "Verif.Vfi.C14_stack",
    "Verif.Vfi.C14_overflow",
    "Verif.Vfi.C14_progress",
    "Verif.Vfi.C14_collision",
    "Verif.Vfi.C14_interleaved"
   ],
   "note": "Stack discipline and progress for every well nested sequence within the depth limit; overflow, hash collisions and interleaved threads are counterexamples."
  },
  {
   "property": "C15",
   "status": "proved",
   "theorems": [
    "Verif.Rng.C15_reproducible",
    "Verif.Rng.C15_two_schedules",
    "Verif.Rng.C15_sequential",
    "Verif.Rng.C15_order_matters"
   ],
   "note": "Any number of threads, any schedule; the atomic counter increment, the seeding and each draw are separate steps."
  },
  {
   "property": "C16",
   "status": "proved",
   "theorems": [
    "Verif.Rng.C16_distinct_streams",
    "Verif.Rng.C16_distinct_numbers"
   ],
   "note": "States differ at every number of draws, and the drawn sequences differ; needs fewer than 2^32 threads, the width of the rank counter."
  },
  {
   "property": "C17",
   "status": "proved",
   "theorems": [
    "Verif.Rng.C17_draw_range",
    "Verif.Rng.C17_every_value",
    "Verif.Rng.C17_zero_possible"
   ],
   "note": "Every multiple of 2^-52 is drawn within one period of every non-degenerate stream. The interval is not open as the code comment says."
  },
  {
   "property": "C18",
   "status": "partial",
   "theorems": [
    "Verif.Rng.C18_full_period_partial",
    "Verif.Rng.C18_degenerate",
    "Verif.Rng.C18_one_bad_seed"
   ],
   "note": "False for exactly one seed per thread rank (C18_degenerate, C18_one_bad_seed); for every other seed the period is 2^128-1."
  },
  {
   "property": "C19",
   "status": "proved",
   "theorems": [
    "Verif.Mca.C19_bound",
    "Verif.Mca.C19_operand",
    "Verif.Mca.C19_subnormal_excluded"
   ],
   "note": "For every normal wide value and, in particular, every widened operand; both wide formats."
  },
  {
   "property": "C20",
   "status": "partial",
   "theorems": [
    "Verif.Mca.C20_documented_partial",
    "Verif.Mca.C20_accepted_ub",
    "Verif.Mca.C20_wrap_anything",
    "Verif.Mca.Config.C64_mcaint_precision",
    "Verif.Mca.Config.C64_mcaint_configure_wrong"
   ],
   "note": "Every documented precision is defined; precisions above the maximum are accepted and always shift out of range."
  },
  {
   "property": "C21",
   "status": "partial",
   "theorems": [
    "Verif.Mca.C21_noise_partial",
    "Verif.Mca.C21_bound_partial",
    "Verif.Mca.C21_operand_partial",
    "Verif.Mca.C21_perturb_partial",
    "Verif.Mca.C21_half_wrong",
    "Verif.Mca.C21_half_example"
   ],
   "note": "Noise value and bound proved for every exponent, precision and draw except the draw exactly one half, for which the claim is false: C21_half_wrong and C21_half_example prove the huge noise the wrapped exponent field of a zero gives."
  },
  {
   "property": "C22",
   "status": "proved",
   "theorems": [
    "Verif.Mca.C22_special",
    "Verif.Mca.C22_ieee",
    "Verif.Mca.C22_rr_exact",
    "Verif.Mca.C22_perturbed",
    "Verif.Mca.C22_sparsity",
    "Verif.Mca.C22_modes",
    "Verif.Mca.C22_ieee_op",
    "Verif.Mca.C22_cast_rr",
    "Verif.Mca.C22_sparsity_per_value"
   ],
   "note": "Both MCA backends, all modes, formats, operands and generator states. C22_sparsity_per_value records that the sparsity draw is made per value, not per operation."
  },
  {
   "property": "C23",
   "status": "partial",
   "theorems": [
    "Verif.Fp.C23_normal_exact",
    "Verif.Fp.C23_yes_sound",
    "Verif.Fp.C23_quad_exact",
    "Verif.Fp.C23_subnormal_wrong"
   ],
   "note": "Exact on normal numbers, sound everywhere, exact for quad; false on binary32/binary64 subnormals (counterexample)."
  },
  {
   "property": "C24",
   "status": "proved",
   "theorems": [
    "Verif.Bitmask.C24_fields",
    "Verif.Bitmask.C24_error",
    "Verif.Bitmask.C24_special",
    "Verif.Bitmask.C24_operation",
    "Verif.Bitmask.C24_cast_wrong"
   ],
   "note": "For every mask operator, precision and finite datum; the cast is outside the statement and does not keep leading bits with operator one (C24_cast_wrong)."
  },
  {
   "property": "C25",
   "status": "partial",
   "theorems": [
    "Verif.Bitmask.C25_explicit_partial",
    "Verif.Bitmask.C25_cli_defined",
    "Verif.Bitmask.C25_default_inert",
    "Verif.Bitmask.C25_default_not_applied"
   ],
   "note": "False for the default: without an explicit precision the backend reports 23/52 bits but its mask keeps every bit. Holds whenever the command line sets the precision."
  },
  {
   "property": "C26",
   "status": "partial",
   "theorems": [
    "Verif.Cancel.C26_untouched",
    "Verif.Cancel.C26_double_partial",
    "Verif.Cancel.C26_float_partial",
    "Verif.Cancel.C26_complete_cancellation",
    "Verif.Cancel.C26_half_wrong"
   ],
   "note": "Exactness below the tolerance proved in full. The bound is proved for float for every draw but one half, and for double when the scaled exponent stays in range; it is false for complete cancellation in double (C26_complete_cancellation) and for the draw one half (C26_half_wrong)."
  },
  {
   "property": "C27",
   "status": "partial",
   "theorems": [
    "Verif.Ieee.C27_agrees_partial",
    "Verif.Ieee.C27_wrong_iff",
    "Verif.Ieee.C27_not_equal_false"
   ],
   "note": "False: the unordered predicates UEQ, UGT, UGE, ULT, ULE, UNE only test for NaN; C27_wrong_iff says exactly for which operands the answer is wrong. The ten other predicates agree with LLVM for all operands."
  },
  {
   "property": "C28",
   "status": "proved",
   "theorems": [
    "Verif.Ieee.C28_counts",
    "Verif.Ieee.C28_report",
    "Verif.Ieee.C28_disabled"
   ],
   "note": "Any number of threads, any schedule; counts modulo 2^64, printed correctly below 2^63. Comparisons and casts have no counter."
  },
  {
   "property": "C29",
   "status": "proved",
   "theorems": [
    "Verif.Ieee.C29_denotes",
    "Verif.Ieee.C29_special",
    "Verif.Ieee.C29_injective",
    "Verif.Ieee.C29_nan"
   ],
   "note": "All NaNs print as +nan (C29_nan); every other datum is identified by its text."
  },
  {
   "property": "C30",
   "status": "proved",
   "theorems": [
    "Verif.Wrapper.C30_chain",
    "Verif.Wrapper.C30_last",
    "Verif.Wrapper.C30_defined",
    "Verif.Wrapper.C30_nan",
    "Verif.Wrapper.C30_cmp_without_backend"
   ],
   "note": "Backends are arbitrary functions with shared state; the last one only decides if it overwrites the result variable."
  },
  {
   "property": "C31",
   "status": "proved",
   "theorems": [
    "Verif.Wrapper.C31_lanes",
    "Verif.Wrapper.C31_stateless"
   ],
   "note": "For every number of lanes and every stateful scalar wrapper."
  },
  {
   "property": "C32",
   "status": "partial",
   "theorems": [
    "Verif.Wrapper.C32_decision",
    "Verif.Wrapper.C32_exclusive",
    "Verif.Wrapper.C32_generate_partial",
    "Verif.Wrapper.C32_stale_sites",
    "Verif.Wrapper.C32_long_description",
    "Verif.Wrapper.C32_missing_include"
   ],
   "note": "Decisions proved for all filter files and runs. The generated file is right when it is new and its lines are shorter than 2048 bytes; otherwise counterexamples."
  },
  {
   "property": "C33",
   "status": "partial",
   "theorems": [
    "Verif.Hash.C33_terminates",
    "Verif.Hash.C33_none_is_divergence",
    "Verif.Hash.C33_insert_get_partial",
    "Verif.Hash.C33_get_sound",
    "Verif.Hash.C33_same_value_dropped",
    "Verif.Hash.C33_duplicate_key_changes"
   ],
   "note": "Loops terminate for every history of up to 2^28 operations; lookups are right for distinct keys and values (not 0/1). False when a value is stored under two keys or a key is stored again."
  },
  {
   "property": "C34",
   "status": "partial",
   "theorems": [
    "Verif.Hash.C34_removed_still_present",
    "Verif.Hash.C34_others_unaffected_partial",
    "Verif.Hash.C34_refines_partial"
   ],
   "note": "False: a removed key is still reported present. Other keys are unaffected; a refinement to a partial map is proved for the remaining operations."
  },
  {
   "property": "C35",
   "status": "partial",
   "theorems": [
    "Verif.Hash.C35_terminates",
    "Verif.Hash.C35_set_partial",
    "Verif.Hash.C35_additions",
    "Verif.Hash.C35_removed_still_member",
    "Verif.Hash.C35_one_member"
   ],
   "note": "Agrees with a mathematical set unless an element already present is added after a removal, or the items 0/1 are used (counterexamples)."
  },
  {
   "property": "C36",
   "status": "partial",
   "theorems": [
    "Verif.Probes.C36_accepted",
    "Verif.Probes.C36_comma",
    "Verif.Probes.C36_duplicate_partial",
    "Verif.Probes.C36_dump",
    "Verif.Probes.C36_read_partial",
    "Verif.Probes.C36_newline_wrong",
    "Verif.Probes.C36_second_dump",
    "Verif.Probes.C36_duplicate_wrong",
    "Verif.Probes.C36_calls"
   ],
   "note": "Every sequence of calls: accepted pairs are written exactly once with their values, and read back (names without line breaks). Duplicates are refused only when no other key has the same 64-bit hash (C36_duplicate_wrong), and line breaks in names are accepted (C36_newline_wrong)."
  },
  {
   "property": "C37",
   "status": "partial",
   "theorems": [
    "Verif.Pass.C37_select",
    "Verif.Pass.C37_function_partial",
    "Verif.Pass.C37_function_wrong",
    "Verif.Pass.C37_unreadable"
   ],
   "note": "Include and exclude files: every text made of comments, blank lines and entries whose patterns have no regular expression syntax other than . and *. --function: names without syntax characters; false for names with a dot (C37_function_wrong)."
  },
  {
   "property": "C38",
   "status": "partial",
   "theorems": [
    "Verif.Pass.C38_wildcards",
    "Verif.Pass.C38_module",
    "Verif.Pass.C38_dollar_wrong",
    "Verif.Pass.C38_star_module_wrong"
   ],
   "note": "All patterns of identifier characters, /, . and *, all names without line breaks. False for $ (C38_dollar_wrong), and the module pattern * does not match a path without a dot (C38_star_module_wrong)."
  },
  {
   "property": "C39",
   "status": "proved",
   "theorems": [
    "Verif.Pass.C39_wrapper",
    "Verif.Pass.C39_unique"
   ],
   "note": "For every instruction LLVM accepts as well typed and every combination of options."
  },
  {
   "property": "C40",
   "status": "proved",
   "theorems": [
    "Verif.Ddtool.C40_ddmin",
    "Verif.Ddtool.C40_deterministic",
    "Verif.Ddtool.C40_unsafe_ignored"
   ],
   "note": "For every finite list of distinct deltas, every sequence of sample verdicts fixed per configuration and every sound cache, with an explicit fuel bound; sequential mode (the parallel one can abort, see C44). C40_unsafe_ignored records that INTERFLOP_DD_UNSAFE changes nothing."
  },
  {
   "property": "C41",
   "status": "proved",
   "theorems": [
    "Verif.Ddtool.C41_ddmax",
    "Verif.Ddtool.C41_deterministic"
   ],
   "note": "As C40, sequential mode."
  },
  {
   "property": "C42",
   "status": "partial",
   "theorems": [
    "Verif.Ddtool.C42_rddmin",
    "Verif.Ddtool.C42_srddmin",
    "Verif.Ddtool.C42_drddmin_partial",
    "Verif.Ddtool.C42_default_partial",
    "Verif.Ddtool.C42_granularity_one_diverges"
   ],
   "note": "Strict and stochastic variants in full; the dichotomy for every granularity but 1, for which it never terminates (C42_granularity_one_diverges). Sequential mode."
  },
  {
   "property": "C43",
   "status": "proved",
   "theorems": [
    "Verif.Ddtool.C43_partition"
   ],
   "note": "For every list and every number of parts between 1 and its length."
  },
  {
   "property": "C44",
   "status": "partial",
   "theorems": [
    "Verif.Ddtool.C44_fail_kept_partial",
    "Verif.Ddtool.C44_pass_kept_partial",
    "Verif.Ddtool.C44_no_abort",
    "Verif.Ddtool.C44_names",
    "Verif.Ddtool.C44_parallel_wrong",
    "Verif.Ddtool.C44_interrupt_wrong"
   ],
   "note": "Proved for the sequential mode and every history of tests. False in the parallel mode (C44_parallel_wrong) and after an interruption (C44_interrupt_wrong). C44_names: distinct configurations hash distinct strings (the digest itself is not modelled)."
  },
  {
   "property": "C45",
   "status": "partial",
   "theorems": [
    "Verif.Ddtool.C45_exponential_partial",
    "Verif.Ddtool.C45_doubling_wrong",
    "Verif.Ddtool.C45_zero",
    "Verif.Ddtool.C45_rddmin_tables",
    "Verif.Ddtool.C45_dicho_tables",
    "Verif.Ddtool.C45_dicho_all"
   ],
   "note": "All but \"at most doubles\", which is false (C45_doubling_wrong); the step is at most twice plus one."
  },
  {
   "property": "C46",
   "status": "proved",
   "theorems": [
    "Verif.Stdlib.C46_pow2i_exact"
   ],
   "note": "Exact for every int i with i+bias an int; beyond, signed overflow is reported as undefined behaviour by the same theorem."
  },
  {
   "property": "C47",
   "status": "partial",
   "theorems": [
    "Verif.Stdlib.C47_finite_class_partial",
    "Verif.Stdlib.C47_never_detected",
    "Verif.Stdlib.C47_backend_class"
   ],
   "note": "False for the library functions: no NaN or infinity is ever detected (C47_never_detected). The classification the backends use is exact (C47_backend_class)."
  },
  {
   "property": "C48",
   "status": "partial",
   "theorems": [
    "Verif.Wrapper.C48_start_up",
    "Verif.Wrapper.C48_from_file",
    "Verif.Wrapper.C48_no_configuration",
    "Verif.Wrapper.C48_arguments",
    "Verif.Wrapper.C48_defined_partial",
    "Verif.Wrapper.C48_256_arguments",
    "Verif.Wrapper.C48_blank_field",
    "Verif.Wrapper.C48_too_many",
    "Verif.Wrapper.C48_round_trip"
   ],
   "note": "False for exactly 256 words (store out of bounds) and for blank fields; everything else proved for all strings."
  },
  {
   "property": "C49",
   "status": "partial",
   "theorems": [
    "Verif.Driver.C49_class",
    "Verif.Driver.C49_compile_partial",
    "Verif.Driver.C49_object_partial",
    "Verif.Driver.C49_link_partial",
    "Verif.Driver.C49_quote_wrong",
    "Verif.Driver.C49_unterminated_wrong",
    "Verif.Driver.C49_source_wrong",
    "Verif.Driver.C49_library_wrong"
   ],
   "note": "Proved for all options without a single quote, in the three commands that receive them. False with single quotes, for options that end like a source, and for libraries and sources with blanks."
  },
  {
   "property": "C50",
   "status": "proved",
   "theorems": [
    "Verif.Vprec.Ops.C50_cast_single_rounding"
   ],
   "note": ""
  },
  {
   "property": "C51",
   "status": "partial",
   "theorems": [
    "Verif.Rng.C51_pop_restores",
    "Verif.Rng.C51_push_fresh_partial",
    "Verif.Rng.C51_push_used_ignored",
    "Verif.Rng.C51_used_after_draw",
    "Verif.Rng.C51_nesting_lost"
   ],
   "note": "Restoring works; reseeding works only on a generator that has not been used, otherwise the pushed seed is ignored."
  },
  {
   "property": "C52",
   "status": "proved",
   "theorems": [
    "Verif.Vfi.C52_counts"
   ],
   "note": "For every run of the instrumentation that does not abort; records are keyed by the hash of the call site."
  },
  {
   "property": "C53",
   "status": "partial",
   "theorems": [
    "Verif.Vfi.C53_bounds_partial",
    "Verif.Vfi.C53_large_value",
    "Verif.Vfi.C53_undefined"
   ],
   "note": "Bounds enclose values within the int range; values over 2^31 are outside the recorded bounds."
  },
  {
   "property": "C54",
   "status": "partial",
   "theorems": [
    "Verif.Wrapper.C54_child_env",
    "Verif.Wrapper.C54_lost",
    "Verif.Wrapper.C54_one_word_partial",
    "Verif.Wrapper.C54_from_file"
   ],
   "note": "False: the environment string is tokenised in place, children see only the first word."
  },
  {
   "property": "C55",
   "status": "partial",
   "theorems": [
    "Verif.Ddtool.C55_words",
    "Verif.Ddtool.C55_int_refused",
    "Verif.Ddtool.C55_search",
    "Verif.Ddtool.C55_search_refused",
    "Verif.Ddtool.C55_parallel"
   ],
   "note": "Algorithm words proved. False for the documented integer value of DD_DICHO_TAB, always refused (C55_int_refused)."
  },
  {
   "property": "C56",
   "status": "partial",
   "theorems": [
    "Verif.Mca.C56_daz",
    "Verif.Mca.C56_ftz",
    "Verif.Mca.C56_ftz_never",
    "Verif.Mca.C56_noise",
    "Verif.Mca.C56_cast_wrong",
    "Verif.Mca.C56_sign_lost"
   ],
   "note": "Full for the operations of both backends; false for the cast from double to float, whose subnormal results are not flushed (C56_cast_wrong). C56_sign_lost: the sign of a flushed number is lost."
  },
  {
   "property": "C57",
   "status": "partial",
   "theorems": [
    "Verif.Mca.C57_add",
    "Verif.Mca.C57_sub",
    "Verif.Mca.C57_mul",
    "Verif.Mca.C57_div",
    "Verif.Mca.C57_cast",
    "Verif.Mca.C57_fma_wrong"
   ],
   "note": "Proved for sums, differences, products, quotients and casts of all data; false for the fused multiply-add (C57_fma_wrong)."
  },
  {
   "property": "C58",
   "status": "partial",
   "theorems": [
    "Verif.Mca.C58_abs_partial",
    "Verif.Mca.C58_all",
    "Verif.Mca.C21_perturb_partial",
    "Verif.Mca.C58_mcaint_ignored"
   ],
   "note": "mcaquad: every draw but one half and every exponent that does not wrap the exponent field. False for mcaint, which ignores the error mode (C58_mcaint_ignored)."
  },
  {
   "property": "C59",
   "status": "partial",
   "theorems": [
    "Verif.Pass.C59_replaced_partial",
    "Verif.Pass.C59_kept",
    "Verif.Pass.C59_operands",
    "Verif.Pass.C59_coerced_wrong",
    "Verif.Pass.C59_cmp_wrong",
    "Verif.Pass.C59_candidates"
   ],
   "note": "Proved when the wrapper returns the type of the instruction. False when the compiler returns a small vector as another type, as for <2 x float> on x86-64: the call is inserted but the original instruction stays (C59_coerced_wrong)."
  },
  {
   "property": "C60",
   "status": "partial",
   "theorems": [
    "Verif.Driver.C60_objects_partial",
    "Verif.Driver.C60_objects_wrong",
    "Verif.Driver.C60_source",
    "Verif.Driver.C60_cxx_wrong"
   ],
   "note": "Proved for sources that differ apart from their extension. False for a.c and a.cpp given together, and for the extension .c++."
  },
  {
   "property": "C61",
   "status": "partial",
   "theorems": [
    "Verif.Precexp.C61_last_run",
    "Verif.Precexp.C61_search",
    "Verif.Precexp.C61_minimum",
    "Verif.Precexp.C61_rejected_diverges",
    "Verif.Precexp.C61_missed_diverges"
   ],
   "note": "Proved for every program that accepts the upper bound; the last run uses the value kept, even for non-deterministic programs. If the upper bound is rejected the search never ends (C61_rejected_diverges), even when a lower value is accepted (C61_missed_diverges)."
  },
  {
   "property": "C62",
   "status": "partial",
   "theorems": [
    "Verif.Precexp.C62_accepted_partial",
    "Verif.Precexp.C62_minimal_partial",
    "Verif.Precexp.C62_explore_partial",
    "Verif.Precexp.C62_operations",
    "Verif.Precexp.C62_arguments",
    "Verif.Precexp.C62_pointer_wrong",
    "Verif.Precexp.C62_unchecked_wrong"
   ],
   "note": "Proved for deterministic programs that accept full precision and do not depend on the fields assigned without a run, on profiles without pointers to float. Pointer types are taken for the wrong formats (C62_pointer_wrong); fields assigned without a run can make the result rejected (C62_unchecked_wrong)."
  },
  {
   "property": "C63",
   "status": "partial",
   "theorems": [
    "Verif.Precexp.C63_profile",
    "Verif.Precexp.C63_save",
    "Verif.Precexp.C63_operations_partial",
    "Verif.Precexp.C63_arguments_wrong",
    "Verif.Precexp.C63_arguments_diverge"
   ],
   "note": "Reading: every profile. Writing: configurations without arguments are read back by VPREC exactly. With arguments the tool writes five fields where VPREC wants seven, so every configuration is refused and the exploration never ends (C63_arguments_wrong, C63_arguments_diverge)."
  },
  {
   "property": "C64",
   "status": "partial",
   "theorems": [
    "Verif.Mca.Config.C64_valid_partial",
    "Verif.Mca.Config.C64_meaning",
    "Verif.Mca.Config.C64_refused",
    "Verif.Mca.Config.C64_mcaint_precision",
    "Verif.Mca.Config.C64_mcaint_configure_wrong",
    "Verif.Mca.Config.C64_skip",
    "Verif.Mca.Config.C64_nan_never_skips",
    "Verif.Mca.Config.C64_configure",
    "Verif.Mca.Config.C64_text_wrong",
    "Verif.Mca.Config.C64_truncated_wrong",
    "Verif.Mca.Config.C64_sparsity_wrong",
    "Verif.Mca.Config.C64_nan_wrong",
    "Verif.Mca.Config.C64_sentinel_wrong"
   ],
   "note": "C64_meaning holds for all sequences of documented options. The invariant holds except that sparsity may be NaN (both) or above 1 (mcaquad), and texts that are not numbers, or numbers that wrap in int, are accepted: proved as _wrong theorems. strtod is a parameter; the spelling of the options and their dispatch are in C103."
  },
  {
   "property": "C65",
   "status": "partial",
   "theorems": [
    "Verif.Bitmask.Config.C65_bitmask_meaning",
    "Verif.Bitmask.Config.C65_bitmask_refused",
    "Verif.Bitmask.Config.C65_operator",
    "Verif.Bitmask.Config.C65_bitmask_configure",
    "Verif.Bitmask.Config.C65_bitmask_help_wrong",
    "Verif.Bitmask.Config.C65_operator_wrong",
    "Verif.Cancel.Config.C65_cancel_meaning",
    "Verif.Cancel.Config.C65_cancel_refused",
    "Verif.Cancel.Config.C65_cancel_valid",
    "Verif.Cancel.Config.C65_warning_wrong",
    "Verif.Cancel.Config.C65_cancel_configure_wrong"
   ],
   "note": "Meaning and refusals hold for every sequence of options. False: the modes of the bitmask help text are refused, configure accepts operator 3 (undefined behaviour) and negative tolerances, --warning=false enables warnings. The spelling of the options and their dispatch are in C103."
  },
  {
   "property": "C66",
   "status": "partial",
   "theorems": [
    "Verif.FuncInst.C66_unique",
    "Verif.FuncInst.C66_hooked",
    "Verif.FuncInst.C66_flags",
    "Verif.FuncInst.C66_modules_wrong",
    "Verif.FuncInst.C66_main_debug_wrong",
    "Verif.FuncInst.C66_indirect_wrong"
   ],
   "note": "Proved within a module: all identifiers and symbols differ, and the calls hooked are exactly those of the property. False across modules (two units that include the same header), and the pass crashes on a main without debug information and on functions with calls through pointers."
  },
  {
   "property": "C67",
   "status": "partial",
   "theorems": [
    "Verif.FuncInst.C67_enter",
    "Verif.FuncInst.C67_exit",
    "Verif.FuncInst.C67_hooks",
    "Verif.FuncInst.C67_main",
    "Verif.FuncInst.C67_arguments",
    "Verif.FuncInst.C67_transparent",
    "Verif.FuncInst.C67_result",
    "Verif.FuncInst.C67_one_backend",
    "Verif.FuncInst.C67_two_backends_wrong",
    "Verif.FuncInst.C67_main_wrong"
   ],
   "note": "Proved for every hooked call and one backend that implements the calls. False for two such backends (they share one va_list) and for a main with a pointer parameter before a floating point one."
  },
  {
   "property": "C68",
   "status": "partial",
   "theorems": [
    "Verif.FuncInst.C68_array_partial",
    "Verif.FuncInst.C68_offset_wrong",
    "Verif.FuncInst.C68_type_wrong",
    "Verif.FuncInst.C68_forward_wrong",
    "Verif.FuncInst.C68_pointer_is_fp_wrong",
    "Verif.FuncInst.C68_vector_wrong",
    "Verif.FuncInst.C68_immarg_wrong"
   ],
   "note": "Proved for pointers to the start of a local array or variable. False for the type (every pointer is described as pointer to float), for pointers past the start, for parameters passed on (the pass never ends), for vectors and for memset and memcpy."
  },
  {
   "property": "C69",
   "status": "partial",
   "theorems": [
    "Verif.Ci.C69_reference_partial",
    "Verif.Ci.C69_absolute_partial",
    "Verif.Ci.C69_relative_partial",
    "Verif.Ci.C69_no_check",
    "Verif.Ci.C69_absolute_wrong",
    "Verif.Ci.C69_relative_wrong",
    "Verif.Ci.C69_cancel_wrong",
    "Verif.Ci.C69_order_wrong",
    "Verif.Ci.C69_target_zero_wrong",
    "Verif.Ci.C69_zero_wrong"
   ],
   "note": "Proved when both runs record the same probes and no target is negative: right reference, and the checks are exact up to rounding (absolute: no false pass; relative: up to a factor 1 - 2^-53). False at the rounding boundary, when targets cancel in the sum that decides if the reference run is made, when the reference run records other probes, for a target of zero and for an IEEE value of zero."
  },
  {
   "property": "C70",
   "status": "partial",
   "theorems": [
    "Verif.Ci.C70_groups",
    "Verif.Ci.C70_read_partial",
    "Verif.Ci.C70_samples",
    "Verif.Ci.C70_check_partial",
    "Verif.Ci.C70_nan_wrong",
    "Verif.Ci.C70_inf_wrong",
    "Verif.Ci.C70_names_wrong",
    "Verif.Ci.C70_executables_wrong",
    "Verif.Ci.C70_zero_wrong",
    "Verif.Ci.C70_identical_wrong"
   ],
   "note": "Grouping is proved for all files that are read. False: a NaN or a file of infinities ends the run, names such as NA or null are dropped, executables with probes of the same name are mixed, relative checks with an average of zero always fail, three identical values may fail an absolute check. The square root is a parameter; quantiles and significant digits are in C99."
  },
  {
   "property": "C71",
   "status": "partial",
   "theorems": [
    "Verif.Ci.Report.C71_distinct_partial",
    "Verif.Ci.Report.C71_select",
    "Verif.Ci.Report.C71_same_time_wrong",
    "Verif.Ci.Report.C71_mixed_wrong",
    "Verif.Ci.Report.C71_alternate_wrong"
   ],
   "note": "Proved when all runs or none belong to a commit and the runs of a commit follow each other. False otherwise, and two commits with the same author date stop the report. The clock is read once."
  },
  {
   "property": "C72",
   "status": "partial",
   "theorems": [
    "Verif.Ci.Report.C72_ninth_partial",
    "Verif.Ci.Report.C72_nine",
    "Verif.Ci.Report.C72_kept",
    "Verif.Ci.Report.C72_aligned",
    "Verif.Ci.Report.C72_zeros_wrong",
    "Verif.Ci.Report.C72_failure_wrong",
    "Verif.Ci.Report.C72_minimum_wrong"
   ],
   "note": "Proved over rational numbers for data that is not all zero. False: all-zero data is removed entirely, the colours and tooltips are not filtered with the points, and boxes are filtered by their maxima only."
  },
  {
   "property": "C73",
   "status": "partial",
   "theorems": [
    "Verif.Ci.Report.C73_all_partial",
    "Verif.Ci.Report.C73_data",
    "Verif.Ci.Report.C73_count",
    "Verif.Ci.Report.C73_recent_wrong",
    "Verif.Ci.Report.C73_range_wrong",
    "Verif.Ci.Report.C73_none_wrong"
   ],
   "note": "Proved: the runs shown are the ones read, as many as asked, and all of them when there are no more than the maximum. False otherwise: the oldest runs are kept, for every set of runs with more files than the maximum."
  },
  {
   "property": "C74",
   "status": "partial",
   "theorems": [
    "Verif.Ci.Report.C74_shows_partial",
    "Verif.Ci.Report.C74_deterministic_wrong",
    "Verif.Ci.Report.C74_repository_wrong",
    "Verif.Ci.Report.C74_click_wrong"
   ],
   "note": "The invariant holds for the table of non-deterministic backends. False for the other table, which always shows the last run; changing to a repository whose last run has the selected name, and clicks, raise."
  },
  {
   "property": "C75",
   "status": "partial",
   "theorems": [
    "Verif.Ci.Report.C75_names_partial",
    "Verif.Ci.Report.C75_same_branch_wrong",
    "Verif.Ci.Report.C75_other_branch_wrong",
    "Verif.Ci.Report.C75_two_branches_wrong"
   ],
   "note": "Proved when every repository has one branch and no two have the same. False otherwise: the lists of distinct URLs and of distinct branches are indexed together."
  },
  {
   "property": "C76",
   "status": "partial",
   "theorems": [
    "Verif.Ci.Report.C76_words_partial",
    "Verif.Ci.Report.C76_read_partial",
    "Verif.Ci.Report.C76_logo_wrong",
    "Verif.Ci.Report.C76_parent_wrong",
    "Verif.Ci.Report.C76_name_wrong",
    "Verif.Ci.Report.C76_space_wrong"
   ],
   "note": "Proved for values without spaces, without empty or dot components between slashes, that are not names of options. False otherwise: the whole command is given to os.path.normpath, which breaks every URL and replaces the served program for ../../runs. Shell syntax other than spaces is not modelled."
  },
  {
   "property": "C77",
   "status": "partial",
   "theorems": [
    "Verif.Prism.C77_read",
    "Verif.Prism.C77_width",
    "Verif.Prism.C77_same_partial",
    "Verif.Prism.C77_equal",
    "Verif.Prism.C77_isa",
    "Verif.Prism.C77_wider_wrong",
    "Verif.Prism.C77_empty_wrong",
    "Verif.Prism.C77_conflict_wrong",
    "Verif.Prism.C77_scalar_wrong"
   ],
   "note": "Proved: the attribute is read back exactly, equal attributes are compatible, and when lists without contradictions are accepted the registers of the caller are at least as wide, so that vectors that fit a register of the callee are passed alike. False: a caller with wider registers is accepted though vectors are passed otherwise, functions without features accept everything, contradictory features, and scalar calls are refused needlessly."
  },
  {
   "property": "C78",
   "status": "partial",
   "theorems": [
    "Verif.Prism.C78_names",
    "Verif.Prism.C78_named",
    "Verif.Prism.C78_lookup",
    "Verif.Prism.C78_unique",
    "Verif.Prism.C78_overload_wrong"
   ],
   "note": "Names are injective and the lookup is exact for every library with distinct symbols. False for overloads: the last definition wins whatever its parameters. The demangler is a parameter."
  },
  {
   "property": "C79",
   "status": "partial",
   "theorems": [
    "Verif.Prism.C79_replaced_partial",
    "Verif.Prism.C79_only",
    "Verif.Prism.C79_kept",
    "Verif.Prism.C79_missing",
    "Verif.Prism.C79_scalable",
    "Verif.Prism.C79_fmuladd_wrong",
    "Verif.Prism.C79_option_wrong",
    "Verif.Prism.C79_strict_wrong"
   ],
   "note": "Proved when the library has the function and the features are accepted. False: llvm.fmuladd, which clang emits by default, is never replaced; --inst-fma is never read; the strict mode leaves operations with incompatible features alone silently."
  },
  {
   "property": "C80",
   "status": "partial",
   "theorems": [
    "Verif.Prism.C80_typed_partial",
    "Verif.Prism.C80_f32x2_wrong",
    "Verif.Prism.C80_byval_wrong"
   ],
   "note": "Proved for functions of the type the pass expects (x86-64 coercion of two floats to a double, pointers for the variable ones). False for libraries whose fixed functions take <2 x float> as such or vectors through memory."
  },
  {
   "property": "C81",
   "status": "partial",
   "theorems": [
    "Verif.Prism.C81_same",
    "Verif.Prism.C81_excluded_wrong"
   ],
   "note": "Equal to the selection of the other pass (C37) for names that neither library defines. False otherwise: functions with the name of any function of either library are never instrumented."
  },
  {
   "property": "C82",
   "status": "partial",
   "theorems": [
    "Verif.Prism.C82_refines",
    "Verif.Prism.C82_order",
    "Verif.Prism.C82_slots",
    "Verif.Prism.C82_modified_wrong"
   ],
   "note": "Simulation proved for all functions, inputs, orders and numbers of steps; phi nodes are values of the environment and the alloca is a slot of the frame. False of the value returned: the pass always reports that nothing changed."
  },
  {
   "property": "C83",
   "status": "partial",
   "theorems": [
    "Verif.Driver.C83_std",
    "Verif.Driver.C83_prism_partial",
    "Verif.Driver.C83_mode",
    "Verif.Driver.C83_prism_wrong",
    "Verif.Driver.C83_space_wrong",
    "Verif.Driver.C83_debug_wrong"
   ],
   "note": "Proved for names the shell leaves alone. False: --inst-fcmp and --inst-cast make opt fail with PRISM, names with spaces are split, two of the three debug modes have no effect."
  },
  {
   "property": "C84",
   "status": "partial",
   "theorems": [
    "Verif.Vprec.C84_single_rounding_partial",
    "Verif.Vprec.C84_full_mode_partial",
    "Verif.Vprec.C84_sum_rounded_twice32",
    "Verif.Vprec.C84_sum_rounded_twice64",
    "Verif.Vprec.C84_fma_rounded_twice32",
    "Verif.Vprec.C84_fma_rounded_twice64",
    "Verif.Vprec.C84_half_tie_wrong",
    "Verif.Vprec.C84_small_product_rounded_twice"
   ],
   "note": "Proved for the four operations, both types, every format with 2p+2 <= mantissa bits of the type, operands in the format or rounded to it first (full mode). False, and left out: the fused multiply-add, results at half the smallest subnormal (the tie of C02), products below the normal numbers when the exponent range is that of the type. For sums the bound on p is shown to be sharp."
  },
  {
   "property": "C85",
   "status": "partial",
   "theorems": [
    "Verif.Precexp.C85_identifier",
    "Verif.Precexp.C85_page_partial",
    "Verif.Precexp.C85_pictures_partial",
    "Verif.Precexp.C85_never_written",
    "Verif.Precexp.C85_selection_wrong",
    "Verif.Precexp.C85_opsOnly_wrong",
    "Verif.Precexp.C85_collision_wrong",
    "Verif.Precexp.C85_case_wrong"
   ],
   "note": "Proved of what is prepared: sections, bars and entries, and three of the four links when no two call sites share a chart name. False: the page is never written (ReportString is local to main), the selection has no effect, the fourth link shows the operations of the other search, chart names coincide for files of the same name, section names for functions that differ by case."
  },
  {
   "property": "C86",
   "status": "proved",
   "theorems": [
    "Verif.Rng.C86_words",
    "Verif.Rng.C86_draws",
    "Verif.Rng.C86_mean",
    "Verif.Rng.C86_variance"
   ],
   "note": "Counts over the period of C18 (2^128-1 states): every word 2^64 times, 0 once less; every draw 2^76 times, 0 once less; the sum of the centred draws is -(2^76-1)/2, their mean square 1/12 up to 2^-100."
  },
  {
   "property": "C87",
   "status": "partial",
   "theorems": [
    "Verif.Mca.C87_int",
    "Verif.Mca.C87_mean",
    "Verif.Mca.C87_quad_partial",
    "Verif.Mca.C87_subnormal_wrong",
    "Verif.Mca.C87_half_wrong",
    "Verif.Mca.C87_power_wrong"
   ],
   "note": "Integer backend: proved for all results in the normal range above the smallest normal number, with the mean. Quad backend: proved when the lower neighbour is not a power of two, the draw one half being left out. False: below the normal range all draws give the nearest number; in the quad backend the draw one half gives infinity or another number, and next to a power of two the predecessor of the lower neighbour is returned."
  },
  {
   "property": "C88",
   "status": "partial",
   "theorems": [
    "Verif.Mca.C88_precision",
    "Verif.Mca.C88_untouched",
    "Verif.Mca.C88_ignored",
    "Verif.Mca.C88_bound_partial",
    "Verif.Mca.C88_even_partial",
    "Verif.Mca.C88_subnormal_partial",
    "Verif.Mca.C88_quad_bound_partial",
    "Verif.Mca.C88_overflow",
    "Verif.Mca.C88_idle",
    "Verif.Mca.C88_one",
    "Verif.Mca.C88_quad_zero_wrong",
    "Verif.Mca.C88_zero_wrong",
    "Verif.Mca.C88_half_wrong"
   ],
   "note": "Proved for float and double below the last two binades and for normal quads, the draw one half being left out, and at full precision for even numbers that are no power of two and for all subnormal numbers. False: the draw one half (as C21), FQUAD uses a precision of zero as it is, a request at full precision may change powers of two and odd numbers."
  },
  {
   "property": "C89",
   "status": "partial",
   "theorems": [
    "Verif.Pass.C89_refines_partial",
    "Verif.Pass.C89_observed_partial",
    "Verif.Pass.C89_lanes",
    "Verif.Pass.C89_transparent_partial",
    "Verif.Pass.C89_ieee_partial",
    "Verif.Pass.C89_coerced_wrong",
    "Verif.Pass.C89_stack_wrong"
   ],
   "note": "Refinement proved for all functions whose wrappers return the type of the instruction, by a simulation replacing one instruction at a time. False of <2 x float> on x86-64 (C89_coerced_wrong, as C59); the room on the stack is not preserved (C89_stack_wrong)."
  },
  {
   "property": "C90",
   "status": "partial",
   "theorems": [
    "Verif.Pass.C90_transparent_partial",
    "Verif.Pass.C90_count_partial",
    "Verif.Pass.C90_branch_wrong"
   ],
   "note": "Proved for all functions whose wrappers return the type of the instruction and whose comparisons use one of the ten predicates the backend implements as LLVM defines them. False of the six others: x != y takes the other branch for all numbers that differ (C90_branch_wrong, as C27)."
  },
  {
   "property": "C91",
   "status": "partial",
   "theorems": [
    "Verif.Pass.C91_neutral_partial",
    "Verif.Pass.C91_cast_wrong",
    "Verif.Pass.C91_tolerance_tight"
   ],
   "note": "Proved for all functions whose wrappers return the type of the instruction; VPREC with the formats of the types only without --inst-cast, MCA in ieee mode only without --inst-fma (C57). False of VPREC as configured by default with --inst-cast: the conversion to float rounds ties at half the smallest subnormal number up and loses the sign of negative numbers that become zero (C91_cast_wrong). The bound 2047 on the tolerance is tight."
  },
  {
   "property": "C92",
   "status": "partial",
   "theorems": [
    "Verif.Logger.C92_text_partial",
    "Verif.Logger.C92_disabled",
    "Verif.Logger.C92_error",
    "Verif.Logger.C92_levels",
    "Verif.Logger.C92_silence_wrong",
    "Verif.Logger.C92_name_wrong",
    "Verif.Logger.C92_reason_wrong",
    "Verif.Logger.C92_threads_wrong"
   ],
   "note": "The text on every stream is given exactly for all environments and calls. False: warnings are displayed with the logger disabled and at level error, only their header is suppressed; a file name of 1024 characters or more with its suffix overflows a buffer; a file that cannot be opened is reported with \"Success\"; all threads write to the file of the initialising thread."
  },
  {
   "property": "C93",
   "status": "partial",
   "theorems": [
    "Verif.Stdlib.C93_string_equal",
    "Verif.Stdlib.C93_set",
    "Verif.Stdlib.C93_wrapper",
    "Verif.Stdlib.C93_checked_partial",
    "Verif.Stdlib.C93_long_wrong",
    "Verif.Stdlib.C93_checked_wrong"
   ],
   "note": "Setting by name and the wrapper: proved. Any host: proved for the IEEE, MCA, integer MCA and VPREC backends; false of bitmask and cancellation, which call strtol and gettimeofday without testing them. __string_equal is wrong beyond 2049 characters."
  },
  {
   "property": "C94",
   "status": "partial",
   "theorems": [
    "Verif.Pass.C94_contract_partial",
    "Verif.Pass.C94_compare_partial",
    "Verif.Pass.C94_vprec_partial",
    "Verif.Pass.C94_bitmask_partial",
    "Verif.Pass.C94_cancellation_partial",
    "Verif.Pass.C94_stochastic_partial"
   ],
   "note": "Programs keep any contract of the backend (C94_contract_partial, and C94_compare_partial with --inst-fcmp when a backend compares as the machine does), for all functions whose wrappers return the type of the instruction (C89). The contracts: VPREC with relative errors, rounding results, without casts; bitmask without daz, ftz and casts; cancellation with a tolerance of 1 or more and a generator that never draws one half (C21); random rounding by the integer MCA backend at the default precisions without casts."
  },
  {
   "property": "C95",
   "status": "partial",
   "theorems": [
    "Verif.Ieee.C95_text",
    "Verif.Ieee.C95_read",
    "Verif.Ieee.C95_names",
    "Verif.Ieee.C95_logfile_wrong",
    "Verif.Ieee.C95_threads_wrong",
    "Verif.Ieee.C95_newline_wrong",
    "Verif.Pass.C95_states_partial",
    "Verif.Pass.C95_program_partial"
   ],
   "note": "The text on every stream for all lists of operations, and its reading back: proved. Of programs: proved for functions whose wrappers return the type of the instruction (C89) and whose comparisons use the predicates the backend implements as LLVM does (C27), without calls of other instrumented functions. False: with VFC_BACKENDS_LOGFILE the file gets headers only, the operations stay on the standard error; operations of two threads can read as one that nobody did; --print-new-line breaks the lines."
  },
  {
   "property": "C96",
   "status": "partial",
   "theorems": [
    "Verif.Pass.C96_int_partial",
    "Verif.Pass.C96_quad_partial",
    "Verif.Pass.C96_int_relative_partial",
    "Verif.Pass.C96_quad_relative_partial",
    "Verif.Pass.C96_program_partial",
    "Verif.Pass.C96_half_wrong"
   ],
   "note": "Every operation of a program, through C94_contract_partial: proved for the integer backend at precisions within its limits (C20) and for the quad backend with relative errors and a generator that never draws one half, without --inst-fcmp; the relative bounds without daz and ftz and for results away from underflow and overflow; the bound of a whole function for (a+b)^2. False when one half is drawn: no bound is kept."
  },
  {
   "property": "C97",
   "status": "partial",
   "theorems": [
    "Verif.Pass.C97_straight_partial",
    "Verif.Pass.C97_relative_partial",
    "Verif.Pass.C97_int_partial",
    "Verif.Pass.C97_quad_partial",
    "Verif.Pass.C97_sum_partial",
    "Verif.Pass.C97_subtraction_wrong"
   ],
   "note": "Proved for all straight-line functions of scalars of one type without subtraction, values and bounds being away from underflow and overflow, without --inst-fcmp, daz and ftz, for any backends with an error bound, in particular the integer backend within its precisions (C20) and the quad backend with a generator that never draws one half (C21). Loops and subtractions are in C100, mixed types in C102. False of subtractions as stated here."
  },
  {
   "property": "C98",
   "status": "partial",
   "theorems": [
    "Verif.Pass.C98_ieee_partial",
    "Verif.Pass.C98_cancellation_partial",
    "Verif.Pass.C98_bitmask_partial",
    "Verif.Pass.C98_vprec_partial",
    "Verif.Pass.C98_error_partial",
    "Verif.Pass.C98_agree_partial",
    "Verif.Pass.C98_digits_partial",
    "Verif.Pass.C98_cast_ieee",
    "Verif.Pass.C98_cast_cancellation",
    "Verif.Pass.C98_cast_int_partial",
    "Verif.Pass.C98_cast_quad_partial",
    "Verif.Pass.C98_cast_vprec_partial",
    "Verif.Pass.C98_cast_bitmask_partial"
   ],
   "note": "Proved for straight-line functions as in C97, for all configurations in relative mode within the limits of VPREC (precisions 23 and 52 with shifts that wrap), bitmask from precision 1 without daz and ftz (these three for operands of any sign), cancellation with a tolerance of at least 1 and a generator that never draws one half, without --inst-fcmp; the conversions of --inst-cast have contracts of their own (C98_cast_*), used in C102; the statistics are computed exactly. The contracts for operands of any sign include fused multiply-adds, used in C102. Absolute error modes and daz/ftz of bitmask are in C112, loops in C100, mixed types in C102."
  },
  {
   "property": "C99",
   "status": "partial",
   "theorems": [
    "Verif.Ci.Stats.C99_order",
    "Verif.Ci.Stats.C99_quantile",
    "Verif.Ci.Stats.C99_sigma",
    "Verif.Ci.Stats.C99_sigma_zero",
    "Verif.Ci.Stats.C99_order_free",
    "Verif.Ci.Stats.C99_digits",
    "Verif.Ci.Stats.C99_meaning",
    "Verif.Ci.Stats.C99_scale",
    "Verif.Ci.Stats.C99_samples",
    "Verif.Ci.Stats.C99_check",
    "Verif.Ci.Stats.C99_zero_mean_wrong",
    "Verif.Ci.Stats.C99_zeros_wrong"
   ],
   "note": "Proved for statistics in exact arithmetic. Missing: the roundings of numpy, the methods of the package significantdigits and the Shapiro-Wilk test, which are given. False of samples whose mean is zero: they have 53 significant bits whatever their spread, and fail every relative check even when they are all zero. Fewer than three samples of one probe stop the whole run."
  }
 ]
}