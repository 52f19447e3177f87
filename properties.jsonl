{"id": "C01", "title": "VPREC rounds correctly to nearest-even in the requested format (normal range)", "statement": "When the VPREC backend is asked to emulate a format with p explicit mantissa bits and r exponent bits (1<=p<mantissa size of the C type, 2<=r<=exponent size), the value it returns for any finite float/double whose magnitude is at least the smallest normal of that format is the nearest number having p+1 significant bits, ties going to the one with an even last bit; if that number exceeds the largest exponent of the format the result is the infinity of the same sign.", "quantifier": "for every binary32 and binary64 bit pattern that is finite, every precision p below the full one, every range r", "why_tests_cant": "2^32 x 22 x 7 float cases and 2^64 double cases; the interesting ones (ties, carries into the next binade, the overflow boundary) are a vanishing fraction of random samples.", "anchors": ["src/backends/interflop-backend-vprec/common/vprec_tools.c:round_binary32_normal,round_binary64_normal,check_if_binary32_needs_rounding", "src/backends/interflop-backend-vprec/interflop_vprec.c:_vprec_round_binary32,_vprec_round_binary64"]}
{"id": "C02", "title": "VPREC gradual underflow", "statement": "For any finite float/double below the smallest normal of the requested format (but nonzero) the VPREC backend returns a multiple of the smallest subnormal 2^(emin-p) of the format at distance at most half of it from the input; above half the smallest subnormal ties go to even.", "quantifier": "for every finite binary32/binary64 pattern with exponent below emin, every p, r", "why_tests_cant": "The underflow region has several special-cased branches keyed on exponent differences; only exhaustive or symbolic reasoning covers all (p,r,exponent) combinations.", "anchors": ["src/backends/interflop-backend-vprec/common/vprec_tools.c:round_binary_denormal,round_binary128_underflow,handle_binary32_denormal,handle_binary64_denormal,has_underflow_binary32"]}
{"id": "C03", "title": "VPREC rounding result always fits the requested format", "statement": "Every finite value returned by VPREC rounding (relative-error mode) is exactly representable with p+1 significant bits, exponent at most emax and quantum at least 2^(emin-p): a program run under VPREC sees only numbers of the emulated format.", "quantifier": "for every finite input, p, r, with and without daz/ftz", "why_tests_cant": "Containment in the format must hold for all inputs, in particular for carries at emax and around emin.", "anchors": ["src/backends/interflop-backend-vprec/interflop_vprec.c:_vprec_round_binary32,_vprec_round_binary64"]}
{"id": "C04", "title": "VPREC rounding is idempotent", "statement": "Rounding an already rounded value again with the same precision and range returns it bit for bit unchanged.", "quantifier": "for every binary32/binary64 input (including NaN/Inf/subnormals), p, r", "why_tests_cant": "Holds for all inputs or not at all; a failing bit pattern can be a single tie near a boundary.", "anchors": ["src/backends/interflop-backend-vprec/interflop_vprec.c:_vprec_round_binary32,_vprec_round_binary64"]}
{"id": "C05", "title": "VPREC rounding is monotone", "statement": "If x <= y then the VPREC rounding of x is <= the VPREC rounding of y (infinities ordered as usual).", "quantifier": "for every pair of finite inputs and every p, r", "why_tests_cant": "A statement over all pairs of inputs; branch seams (underflow/denormal/normal/overflow) are where it could break.", "anchors": ["src/backends/interflop-backend-vprec/interflop_vprec.c:_vprec_round_binary32,_vprec_round_binary64"]}
{"id": "C06", "title": "VPREC sign symmetry and special values", "statement": "VPREC rounding returns NaN and infinities unchanged, commutes with negation in value, and never turns a number into one of the opposite sign; the sign of a zero result follows the sign of the input.", "quantifier": "for every input bit pattern, p, r", "why_tests_cant": "Sign of zero in rare underflow branches is not visible to == based tests.", "anchors": ["src/backends/interflop-backend-vprec/interflop_vprec.c:_vprec_round_binary32", "src/backends/interflop-backend-vprec/common/vprec_tools.c:round_binary32_underflow,round_binary128_underflow"]}
{"id": "C07", "title": "VPREC at full precision and range is transparent", "statement": "With the default configuration (precision = mantissa size, range = exponent size, relative mode) the VPREC backend returns exactly the IEEE result of each operation, with no undefined behaviour.", "quantifier": "for every finite and non finite operand", "why_tests_cant": "Tests run one compiler and one machine; undefined shifts are invisible until the optimiser exploits them.", "anchors": ["src/backends/interflop-backend-vprec/common/vprec_tools.c:check_if_binary32_needs_rounding,round_binary32_normal", "src/backends/interflop-backend-vprec/interflop_vprec.h:VPREC_PRECISION_BINARY32_DEFAULT"]}
{"id": "C08", "title": "VPREC absolute error mode bounds the error", "statement": "In absolute error mode with threshold exponent k the value returned differs from the input by at most 2^k.", "quantifier": "for every finite input and every k in range", "why_tests_cant": "The bound crosses three code paths (normal, denormal, zero) with different handling of k.", "anchors": ["src/backends/interflop-backend-vprec/interflop_vprec.c:handle_binary32_normal_absErr,compute_absErr_vprec_binary32,_vprec_round_binary32"]}
{"id": "C09", "title": "VPREC operation modes round exactly where documented", "statement": "For add, sub, mul, div and fma in float and double: mode ieee returns the hardware result on the given operands; ib applies the rounding to operands only; ob to the result only; full to both.", "quantifier": "for every operand, every operation, every mode and every hardware operation", "why_tests_cant": "All combinations of mode, type, operation; the claim is about data flow, for all values.", "anchors": ["src/backends/interflop-backend-vprec/interflop_vprec.c:_vprec_binary32_binary_op,_vprec_binary64_binary_op,_vprec_binary32_ternary_op"]}
{"id": "C10", "title": "VPREC configuration stays within its limits", "statement": "Starting from the defaults, after any sequence of accepted CLI options, presets and interflop_call requests the active precisions and ranges lie in [1,23]/[2,8] (float) and [1,52]/[2,11] (double); a request outside the limits never changes them.", "quantifier": "for every sequence of configuration requests with arbitrary integer arguments", "why_tests_cant": "Histories of unbounded length with arbitrary integers.", "anchors": ["src/backends/interflop-backend-vprec/interflop_vprec.c:_set_vprec_precision_binary32,_set_vprec_range_binary32,parse_opt,INTERFLOP_VPREC_API(user_call)"]}
{"id": "C11", "title": "Function-level precision is scoped to the call", "statement": "With function instrumentation in operations/all mode, while control is in an instrumented user function the active operation precision and range are those configured for that function, and when a callee returns the caller's are restored, for arbitrary nesting and recursion.", "quantifier": "for every well-nested sequence of enter/exit events over any set of call sites", "why_tests_cant": "Call trees are unbounded; leaks only appear for particular mixes of instrumented / non instrumented / library frames.", "anchors": ["src/backends/interflop-backend-vprec/interflop_vprec_function_instrumentation.c:_vfi_enter_function,_vfi_exit_function", "src/vfcwrapper/funcinstr.c:vfc_enter_function,vfc_exit_function"]}
{"id": "C12", "title": "Precision profile file round trip", "statement": "Writing the VPREC precision profile at the end of a run and reading it back as input of the next one reproduces every call site with its precisions, ranges, argument list and observed bounds.", "quantifier": "for every table of call sites with identifiers free of tabs/newlines", "why_tests_cant": "Round trip over all tables, including negative numbers, empty argument lists, and identifiers of any length.", "anchors": ["src/backends/interflop-backend-vprec/interflop_vprec_function_instrumentation.c:_vfi_write_hasmap,_vfi_read_hasmap,_vfi_scan_line"]}
{"id": "C13", "title": "Pointer arguments are rounded element by element", "statement": "When arguments are rounded and an argument is a pointer to n floats/doubles, each of the n elements is rounded to the argument's precision on entry (input) and exit (output).", "quantifier": "for every array length and contents", "why_tests_cant": "Depends on array length; a test with length 1 cannot tell.", "anchors": ["src/backends/interflop-backend-vprec/interflop_vprec_function_instrumentation.c:_vfi_enter_function,_vfi_exit_function"]}
{"id": "C14", "title": "Call stack discipline", "statement": "Across any sequence of nested calls within the maximum depth, the instrumentation call stack always has the running function on top and its caller below, and is back to its initial state when the program's outermost function returns; exceeding the depth ends the program instead of corrupting memory.", "quantifier": "for every well-nested event sequence of any length", "why_tests_cant": "Unbounded sequences.", "anchors": ["src/vfcwrapper/funcinstr.c:vfc_call_stack_init,vfc_call_stack_push,vfc_call_stack_pop,vfc_enter_function,vfc_exit_function"]}
{"id": "C15", "title": "Seeded runs are reproducible", "statement": "With a seed chosen on the command line, the stream of random numbers consumed by a thread is a function of the seed and of the thread's rank of first use only: it does not depend on how the draws of different threads interleave.", "quantifier": "for every seed and every interleaving of draws by any number of threads (with the same first-use order)", "why_tests_cant": "Schedules cannot be enumerated.", "anchors": ["src/interflop-stdlib/rng/vfc_rng.c:_init_rng_state_struct,_get_new_tid,get_rand_double01", "src/interflop-stdlib/rng/xoroshiro128.c:next"]}
{"id": "C16", "title": "Distinct threads get distinct random streams", "statement": "Under one seed, threads of different rank start from different generator states, and two generators in different states never coincide later.", "quantifier": "for every seed, every pair of ranks, every number of draws", "why_tests_cant": "Collisions in a 64/128-bit state space cannot be tested.", "anchors": ["src/interflop-stdlib/rng/splitmix64.c:next_seed", "src/interflop-stdlib/rng/vfc_rng.c:_set_seed", "src/interflop-stdlib/rng/xoroshiro128.c:next"]}
{"id": "C17", "title": "Uniform draws lie in [0,1)", "statement": "Every double drawn is a multiple of 2^-52 in the interval [0,1) and every multiple is produced by some generator state.", "quantifier": "for every 128-bit generator state", "why_tests_cant": "2^128 states.", "anchors": ["src/interflop-stdlib/rng/vfc_rng.c:get_rand_double01", "src/interflop-stdlib/rng/xoroshiro128.c:to_double"]}
{"id": "C18", "title": "Generator never degenerates", "statement": "Whatever seed the user picks, the generator does not get stuck producing a constant stream.", "quantifier": "for every 64-bit seed and thread rank", "why_tests_cant": "A single bad seed among 2^64.", "anchors": ["src/interflop-stdlib/rng/vfc_rng.c:_set_seed", "src/interflop-stdlib/rng/splitmix64.c:next_seed", "src/interflop-stdlib/rng/xoroshiro128.c:next"]}
{"id": "C19", "title": "mcaint noise is bounded and sign/finite preserving", "statement": "The integer MCA backend perturbs a finite nonzero double (for float operations) or quad (for double operations) at virtual precision t by at most 2^(e-t+1), where e is its exponent; the result has the same sign and stays finite whenever the exponent is not the largest one.", "quantifier": "for every finite normal value, every random word, every precision for which the shift is defined", "why_tests_cant": "All pairs of value and 64-bit random word.", "anchors": ["src/backends/interflop-backend-mcaint/interflop_mca_int.c:_noise_binary64,_noise_binary128,_mcaint_inexact"]}
{"id": "C20", "title": "mcaint noise is well defined for every accepted precision", "statement": "For every virtual precision accepted by the integer MCA backend's options the perturbation is computed without undefined behaviour.", "quantifier": "for every precision in the accepted interval, both types", "why_tests_cant": "Undefined behaviour is not observable by running.", "anchors": ["src/backends/interflop-backend-mcaint/interflop_mca_int.c:_noise_binary64,_set_mcaint_precision_binary32", "src/interflop-stdlib/common/options.h:_set_precision"]}
{"id": "C21", "title": "mcaquad noise magnitude", "statement": "The quad MCA backend's noise added to a value of exponent e at virtual precision t is strictly smaller than 2^(e-t+1) in magnitude (|noise| <= 2^(e-t)).", "quantifier": "for every random draw, exponent and precision", "why_tests_cant": "The draw that breaks scaling has probability 2^-52.", "anchors": ["src/backends/interflop-backend-mcaquad/interflop_mca.c:_noise_binary64,_noise_binary128,_INEXACT"]}
{"id": "C22", "title": "MCA modes: which values may be perturbed", "statement": "For both MCA backends: zeros, infinities and NaNs are never perturbed; in ieee mode nothing is; in rr mode an intermediate result exactly representable at the virtual precision is returned unperturbed; pb perturbs only operands, rr only results, mca both; when sparsity skips an operation nothing is perturbed.", "quantifier": "for every operand, mode, precision and random draw", "why_tests_cant": "Universal over random draws: 'never perturbed' cannot be sampled.", "anchors": ["src/backends/interflop-backend-mcaquad/interflop_mca.c:_INEXACT,_MUST_NOT_BE_NOISED,_MCAQUAD_BINARY_OP", "src/backends/interflop-backend-mcaint/interflop_mca_int.c:_INEXACT"]}
{"id": "C23", "title": "Exact representability test is exact", "statement": "The test deciding that a value is representable at virtual precision t answers yes if and only if the value has at most t significant bits.", "quantifier": "for every finite float/double and every t from 1", "why_tests_cant": "All bit patterns and all precisions.", "anchors": ["src/interflop-stdlib/common/float_utils.h:_IS_REPRESENTABLE"]}
{"id": "C24", "title": "Bitmask backend keeps the leading t bits", "statement": "With virtual precision t the bitmask backend keeps sign, exponent and the first t significant bits of every finite nonzero value; operator zero yields truncation towards zero, one fills the discarded bits with ones, rand changes only discarded bits; the error is below 2^(e-t+1).", "quantifier": "for every normal or subnormal bit pattern, t, operator and random word", "why_tests_cant": "Subnormals shift the mask; all patterns and words must be considered.", "anchors": ["src/backends/interflop-backend-bitmask/interflop_bitmask.c:_INEXACT,_set_bitmask_precision_binary32"]}
{"id": "C25", "title": "Bitmask backend applies the advertised default precision", "statement": "When the user does not set a precision, the bitmask backend behaves as configured in the information header it prints (default precision).", "quantifier": "for every initialisation sequence without explicit precision", "why_tests_cant": "Needs comparing the reported and effective configuration over all initialisation paths.", "anchors": ["src/backends/interflop-backend-bitmask/interflop_bitmask.c:binary32_bitmask,_init_context,interflop_bitmask_init"]}
{"id": "C26", "title": "Cancellation backend only perturbs cancellations", "statement": "Addition/subtraction results are returned exactly unless the exponent drop with respect to the larger operand reaches the tolerance; then the change is at most 2^(e_z-(c-1)) where c is the number of cancelled bits; mul, div, fma and cast are always exact.", "quantifier": "for every operand pair, tolerance and random draw", "why_tests_cant": "All pairs of operands and draws; complete cancellation to zero is a corner.", "anchors": ["src/backends/interflop-backend-cancellation/interflop_cancellation.c:cancell,_noise_binary64"]}
{"id": "C27", "title": "IEEE comparison predicates agree with LLVM", "statement": "For each of the 16 fcmp predicates the IEEE backend returns what the LLVM semantics of the original instruction prescribes.", "quantifier": "for every predicate and every pair of operands including NaN", "why_tests_cant": "Finite table times all operands, but tests historically only use ordered operands.", "anchors": ["src/backends/interflop-backend-ieee/interflop_ieee.c:INTERFLOP_IEEE_API(cmp_float)", "src/interflop-stdlib/interflop.h:FCMP_PREDICATE"]}
{"id": "C28", "title": "Operation counters are exact under concurrency", "statement": "With operation counting enabled the final counters equal the number of operations executed of each kind, whatever the interleaving of threads.", "quantifier": "for every finite set of threads, each with any sequence of operations, and every interleaving", "why_tests_cant": "Schedules.", "anchors": ["src/backends/interflop-backend-ieee/interflop_ieee.c:INTERFLOP_IEEE_API(add_float),INTERFLOP_IEEE_API(finalize)"]}
{"id": "C29", "title": "Binary debug printing is lossless", "statement": "The %b-style rendering printed by the IEEE backend identifies the floating-point number: distinct numbers print differently and the printed text denotes exactly the value.", "quantifier": "for every float/double bit pattern and both subnormal styles", "why_tests_cant": "2^64 patterns.", "anchors": ["src/backends/interflop-backend-ieee/common/printf_specifier.c"]}
{"id": "C30", "title": "Backend chaining: every backend sees the original operands, the last one decides", "statement": "Each arithmetic operation calls every loaded backend implementing it, in load order, with the program's operands; the program receives the value computed by the last implementing backend; after a successful start-up some backend implements the operation, so the value is never undefined.", "quantifier": "for every list of at most 16 backends with arbitrary behaviour, every operand", "why_tests_cant": "Quantifies over backends as functions.", "anchors": ["src/vfcwrapper/main.c.in:define_arithmetic_wrapper,check_backends_implements,vfc_init"]}
{"id": "C31", "title": "Vector operations are element-wise scalar operations", "statement": "A vector arithmetic or comparison wrapper of width 2,4,8,16 returns in lane i the scalar wrapper's result on lanes i, processing lanes in increasing order.", "quantifier": "for every width, operands and (stateful) scalar wrapper", "why_tests_cant": "Order and lane mixing for stateful backends cannot be observed from values alone.", "anchors": ["src/vfcwrapper/main.c.in:define_vectorized_arithmetic_wrapper"]}
{"id": "C32", "title": "Delta-debug filters select exactly the listed call sites", "statement": "With an exclude file, listed instruction addresses are executed natively; with an include file exactly the listed (and not excluded) ones are instrumented; a file generated by a previous run with the generate option, used as include file, instruments every site that run visited.", "quantifier": "for every set of addresses and every sequence of operations", "why_tests_cant": "Sets of addresses of any size flowing through a hash table, histories of any length.", "anchors": ["src/vfcwrapper/main.c.in:ddebug,vfc_read_filter_file,ddebug_generate_inclusion"]}
{"id": "C33", "title": "Hash map lookups terminate and find what was inserted", "statement": "From an empty map, after any sequence of insertions (keys with non-trivial values), every lookup terminates, get returns the value first inserted for the key and NULL for a key never inserted, and the item count equals the number of stored entries.", "quantifier": "for every history of insertions and lookups (any length, any 64-bit keys)", "why_tests_cant": "Termination of open addressing and rehash-preservation for all histories.", "anchors": ["src/interflop-stdlib/hashmap/vfc_hashmap.c:vfc_hashmap_insert,vfc_hashmap_get,maybe_rehash,hashmap_add_member"]}
{"id": "C34", "title": "Hash map removal", "statement": "After removing a key from the map, the key is absent and all other keys are unaffected.", "quantifier": "for every history containing removals", "why_tests_cant": "Depends on history (tombstones).", "anchors": ["src/interflop-stdlib/hashmap/vfc_hashmap.c:vfc_hashmap_remove,vfc_hashmap_have"]}
{"id": "C35", "title": "Hash set behaves as a set", "statement": "The address set used by the wrapper library behaves as a mathematical set under add, remove and membership.", "quantifier": "for every history", "why_tests_cant": "Depends on history (tombstones, probe sequences).", "anchors": ["src/vfcwrapper/hashset.c:hashset_add,hashset_remove,hashset_is_member"]}
{"id": "C36", "title": "Probes are written out exactly once each", "statement": "Every probe recorded under a distinct (test, variable) pair appears exactly once in the CSV written by the dump, with its value, threshold and mode; recording the same pair twice, or names with the separator, is refused.", "quantifier": "for every sequence of probe calls", "why_tests_cant": "Sequences of any length, all names (hash collisions).", "anchors": ["src/common/vfc_probes.c:vfc_probe,vfc_probe_check,vfc_dump_probes,gen_probe_key"]}
{"id": "C37", "title": "Include/exclude function selection", "statement": "A function is instrumented iff the include file lists it, or the exclude file does not list it and an include file is not the only file given; inclusion takes precedence over exclusion; --function instruments exactly the function of that name.", "quantifier": "for every function/module name and every pair of files", "why_tests_cant": "All names and lists.", "anchors": ["src/libvfcinstrument/libVFCInstrument.cpp:runOnModule,parseFunctionSetFile", "doc/03-inclusion-exclusion.md"]}
{"id": "C38", "title": "Wildcard patterns match as documented", "statement": "In include/exclude files '*' matches any (possibly empty) sequence of characters and every other character of a plain identifier or path, including '.', matches itself.", "quantifier": "for every pattern built from identifier characters, '/', '.', '*' and every name", "why_tests_cant": "All patterns and names: language equality.", "anchors": ["src/libvfcinstrument/libVFCInstrument.cpp:escape_regex,parseFunctionSetFile"]}
{"id": "C39", "title": "Every replaced instruction has a runtime wrapper", "statement": "Each (operation, element type, vector width) the instrumentation pass replaces has a corresponding function in the wrapper library.", "quantifier": "for every operation, type and width accepted by the pass", "why_tests_cant": "Cross-component closure property between name construction and macro instantiations.", "anchors": ["src/libvfcinstrument/libVFCInstrument.cpp:getMCAFunctionName,mustReplace", "src/vfcwrapper/main.c.in"]}
{"id": "C40", "title": "ddmin returns a 1-minimal failing set", "statement": "With a deterministic test, the ddmin search terminates and returns a subset of the given deltas that fails and such that removing any single delta makes it not fail.", "quantifier": "for every finite delta list and every deterministic test with test(empty)=PASS and test(all)=FAIL", "why_tests_cant": "Quantifies over all oracles.", "anchors": ["src/tools/ddebug/DD.py:interflop_dd_min,_split"]}
{"id": "C41", "title": "ddmax returns a 1-maximal passing configuration", "statement": "With a deterministic test, ddmax terminates and returns a set whose complement passes and such that adding back any single removed delta does not pass.", "quantifier": "for every finite delta list and deterministic test", "why_tests_cant": "Quantifies over all oracles.", "anchors": ["src/tools/ddebug/DD.py:interflop_dd_max,test_mix"]}
{"id": "C42", "title": "rddmin decomposition", "statement": "Recursive ddmin terminates and returns pairwise disjoint failing 1-minimal sets such that the remaining deltas pass.", "quantifier": "for every finite delta list and deterministic test", "why_tests_cant": "Quantifies over all oracles.", "anchors": ["src/tools/ddebug/DD_stoch.py:RDDMin,DRDDMin,SRDDMin"]}
{"id": "C43", "title": "Delta splitting is a partition", "statement": "Splitting a delta list into n parts (1<=n<=length) yields n non-empty contiguous lists whose concatenation is the original list and whose sizes differ by at most one.", "quantifier": "for every list and n", "why_tests_cant": "All lengths.", "anchors": ["src/tools/ddebug/DD.py:_split"]}
{"id": "C44", "title": "Delta-debug verdict cache is sound and crash safe", "statement": "A configuration already recorded as failing is never re-run nor reported passing; a configuration recorded as passing for n runs is not re-run for fewer; interrupting the tool at any point leaves a cache from which it can resume.", "quantifier": "for every sequence of tests and every crash point", "why_tests_cant": "Crash points and histories.", "anchors": ["src/tools/ddebug/DD_stoch.py:sampleToComputeToGetFailure,run,_test", "src/tools/ddebug/DD_exec_stat.py"]}
{"id": "C45", "title": "Dichotomy schedule", "statement": "The exponential schedule of sample counts starts at 1, is strictly increasing, ends at the requested number of runs and each step at most doubles.", "quantifier": "for every requested number of runs >= 1", "why_tests_cant": "All n.", "anchors": ["src/tools/ddebug/dd_config.py:exponentialRange"]}
{"id": "C46", "title": "Powers of two are exact", "statement": "fpow2i/pow2i return exactly 2^i for every i in the normal and subnormal ranges, 0 below and +infinity above.", "quantifier": "for every integer exponent", "why_tests_cant": "All integers, including near INT_MAX.", "anchors": ["src/interflop-stdlib/interflop_stdlib.c:fpow2i,pow2i"]}
{"id": "C47", "title": "NaN / infinity classification", "statement": "The runtime library's isnan/isinf report true exactly for NaNs/infinities.", "quantifier": "for every float/double bit pattern", "why_tests_cant": "All bit patterns.", "anchors": ["src/interflop-stdlib/interflop_stdlib.c:interflop_fpclassifyf,interflop_fpclassifyd,interflop_isnanf,interflop_isinff"]}
{"id": "C48", "title": "Backend command line tokenisation", "statement": "VFC_BACKENDS is split at ';' into backends and at ' ' into arguments, empty tokens ignored; all tokens reach the backend unchanged and in order; too many arguments or backends is an error, never memory corruption.", "quantifier": "for every environment string", "why_tests_cant": "All strings, including 256 arguments exactly.", "anchors": ["src/vfcwrapper/main.c.in:vfc_init"]}
{"id": "C49", "title": "Compiler driver passes options through unchanged", "statement": "Options given to the verificarlo driver that it does not interpret reach the underlying compiler as the same argument words.", "quantifier": "for every list of argument strings", "why_tests_cant": "All strings incl. quotes, spaces, shell metacharacters.", "anchors": ["verificarlo.in.in:shell_escape,shell"]}
{"id": "C50", "title": "VPREC cast double to float rounds once", "statement": "Outside ieee mode the double to float conversion under VPREC rounds its operand exactly once, to the format configured for float (ob, full) or to the narrower of the double format and float (ib): the machine conversion that follows the software rounding never changes the value.", "quantifier": "for every finite double, every configuration within the limits, every mode", "why_tests_cant": "Double rounding shows up only for operands close to a tie of the inner format; the absence of it is a statement about all doubles and all (range, precision) pairs.", "anchors": ["src/backends/interflop-backend-vprec/interflop_vprec.c:INTERFLOP_VPREC_API(cast_double_to_float),_vprec_round_binary64"]}
{"id": "C51", "title": "Saving and reseeding the generator", "statement": "push_seed(s) saves the generator of the calling thread and makes the following draws those of seed s; pop_seed restores the saved generator, so the draws after it continue as if the pair had not happened; pairs nest.", "quantifier": "for every generator state, every seed and every number of draws in between", "why_tests_cant": "Any state in 2^128 and any history of draws; the defect appears only when the generator has been used before.", "anchors": ["src/backends/interflop-backend-mcaint/interflop_mca_int.c:mcaint_push_seed,mcaint_pop_seed", "src/interflop-stdlib/rng/vfc_rng.c:_init_rng_state_struct"]}
{"id": "C52", "title": "Profiled call counts are exact", "statement": "After any well nested sequence of instrumented calls and returns, the call counter of every call site in the profile table equals its previous value plus the number of times the site was entered.", "quantifier": "for every profile, every well nested call sequence of any length and every call site", "why_tests_cant": "A counter must be right after any history of calls and recursion; tests look at one trace.", "anchors": ["src/backends/interflop-backend-vprec/interflop_vprec_function_instrumentation.c:vfi_enter_function,vfi_exit_function"]}
{"id": "C53", "title": "Observed argument bounds enclose the values", "statement": "After a call, the minimum and maximum range recorded for a scalar argument enclose the value passed and all values recorded before.", "quantifier": "for every argument value and every previous record", "why_tests_cant": "The bounds are C int conversions of floor/ceil of any of 2^64 doubles: values over 2^31, NaN and infinities are outside what the tests pass.", "anchors": ["src/backends/interflop-backend-vprec/interflop_vprec_function_instrumentation.c:_vfi_double_inst,_vfi_float_inst"]}
{"id": "C54", "title": "Child processes inherit the backend configuration", "statement": "After start-up VFC_BACKENDS in the environment still denotes the configuration the user gave, so that a child process compiled with verificarlo runs the same backends with the same options.", "quantifier": "for every configuration string and every backend behaviour", "why_tests_cant": "In-place tokenisation of the environment string is invisible inside the process; all strings.", "anchors": ["src/vfcwrapper/main.c.in:vfc_init,parse_vfc_backends_env"]}
{"id": "C55", "title": "Delta-debug options mean what the help text says", "statement": "Every documented value of the delta-debug environment variables is accepted, and the pair of algorithm words starts exactly the documented search; other words stop the tool.", "quantifier": "for every environment", "why_tests_cant": "Options combine, and the integer form is never exercised.", "anchors": ["src/tools/ddebug/dd_config.py:read_environ,readOneOption,get_ddAlgo,get_splitTab", "src/tools/ddebug/DD_stoch.py:run"]}
{"id": "C56", "title": "Denormal flushing in the MCA backends", "statement": "With --daz every operation behaves as on operands whose subnormals are replaced by zero; with --ftz the result of every operation, casts included, is never subnormal and otherwise the one without the option.", "quantifier": "for every mode, operand, perturbation and generator state", "why_tests_cant": "Subnormal operands and results are a 2^-8 or 2^-11 fraction of the inputs and interact with the noise and the double conversion.", "anchors": ["src/backends/interflop-backend-mcaquad/interflop_mca.c:_MCAQUAD_UNARY_OP,_MCAQUAD_BINARY_OP,_MCAQUAD_TERNARY_OP", "src/backends/interflop-backend-mcaint/interflop_mca_int.c:_MCAINT_BINARY_OP", "src/interflop-stdlib/common/float_utils.h:DAZ,FTZ"]}
{"id": "C57", "title": "MCA ieee mode is transparent", "statement": "In ieee mode the MCA backends return exactly the IEEE-754 results: computing in the wider type and converting back rounds as one operation in the original type.", "quantifier": "for all pairs (triples) of float and double operands including special values", "why_tests_cant": "Innocuous double rounding is a statement about 2^64 or 2^128 operand pairs; the bad cases sit at midpoints tests do not hit.", "anchors": ["src/backends/interflop-backend-mcaquad/interflop_mca.c:PERFORM_BIN_OP,PERFORM_FMA,_MCAQUAD_BINARY_OP", "src/backends/interflop-backend-mcaint/interflop_mca_int.c:PERFORM_BIN_OP"]}
{"id": "C58", "title": "MCA error modes", "statement": "With --error-mode=abs the noise is bounded by 2^ERR_EXPONENT independently of the value, with rel it is relative to the value, with all both are applied; in both MCA backends.", "quantifier": "for every value, draw and exponent", "why_tests_cant": "Bounds over all draws and magnitudes.", "anchors": ["src/backends/interflop-backend-mcaquad/interflop_mca.c:_INEXACT,_set_mcaquad_error_mode", "src/backends/interflop-backend-mcaint/interflop_mca_int.c:_INEXACT,_set_mcaint_error_mode"]}
{"id": "C59", "title": "Instrumented instructions are replaced by the result of their wrapper", "statement": "In a selected function, every floating-point instruction of a supported operation, type and width is replaced by the value of a call to its wrapper with its operands; every other instruction is left alone.", "quantifier": "for every instruction, every set of options and every signature the compiler may give to the wrappers", "why_tests_cant": "Depends on how the target passes vectors; tests only run on one machine and compare values of exact operations.", "anchors": ["src/libvfcinstrument/libVFCInstrument.cpp:replaceWithMCACall,updateReturn,updateOperand,runOnBasicBlock"]}
{"id": "C60", "title": "Every source given to the driver is compiled and linked", "statement": "Each source given to the driver, in any of the listed extensions, is recognised and gets an object file of its own, which is linked.", "quantifier": "for every list of arguments", "why_tests_cant": "All file names and combinations.", "anchors": ["verificarlo.in.in:parse_extra_args,compiler_mode,linker_mode"]}
{"id": "C61", "title": "The precision search returns the least accepted value", "statement": "The search of vfc_precexp for the precision or range of one field ends, after a number of runs logarithmic in the interval, with a value inside the bounds whose run was accepted; if more precision never hurts it is the least accepted one.", "quantifier": "for every program (verdict function), all bounds and run numbers", "why_tests_cant": "All monotone and non-monotone programs; tests run one program.", "anchors": ["src/tools/optimize/precexp.py:dich_search_operations,dich_search_arguments"]}
{"id": "C62", "title": "Precision exploration ends with an accepted, locally minimal configuration", "statement": "In each mode (operations, arguments, all), the exploration covers every field of every selected function, ends, and leaves a configuration that the program accepts and in which no explored field can be lowered alone.", "quantifier": "for every profile, mode and program", "why_tests_cant": "Any number of functions and arguments, any program; the search order matters.", "anchors": ["src/tools/optimize/precexp.py:search_minimum_operations,search_minimum_arguments,main"]}
{"id": "C63", "title": "Precision exploration reads VPREC profiles and writes configurations VPREC reads", "statement": "vfc_precexp reads every profile VPREC writes, keeping the selected calls with their own arguments, and each configuration it writes is read by VPREC as the configuration being tried.", "quantifier": "for every profile, selection list and configuration", "why_tests_cant": "Two programs in two languages must agree on a text format, for every size of profile.", "anchors": ["src/tools/optimize/precexp.py:getProfile,save,Check", "src/backends/interflop-backend-vprec/interflop_vprec_function_instrumentation.c:_vfi_read_hasmap"]}
{"id": "C64", "title": "MCA options mean what the help says", "statement": "Any sequence of documented options of mcaquad and mcaint is accepted and yields the default configuration overridden by the last occurrence of each option; values outside the documented sets stop the process; and after any history of options, configure and precision calls the configuration satisfies what the operations rely on (positive precisions, an active error mode, 0 < sparsity <= 1).", "quantifier": "for every sequence of options, argument texts, configure structures and precision calls", "why_tests_cant": "Unbounded option sequences and argument texts (numbers of any length, any case); tests try one value per option.", "anchors": ["src/backends/interflop-backend-mcaquad/interflop_mca.c:parse_opt,configure,user_call", "src/backends/interflop-backend-mcaint/interflop_mca_int.c:parse_opt,configure", "src/interflop-stdlib/common/options.h:_set_precision,_mca_skip_eval"]}
{"id": "C65", "title": "Bitmask and cancellation options mean what the help says", "statement": "Any sequence of documented options of the bitmask and cancellation backends is accepted and means the last value given for each option, masks included; values outside the documented sets stop the process; no configuration leads to undefined behaviour.", "quantifier": "for every sequence of options, argument texts and configure structures", "why_tests_cant": "Unbounded option sequences and argument texts; the raw enums of configure can hold any number.", "anchors": ["src/backends/interflop-backend-bitmask/interflop_bitmask.c:parse_opt,configure,_set_bitmask_operator,_INEXACT", "src/backends/interflop-backend-cancellation/interflop_cancellation.c:parse_opt,configure"]}
{"id": "C66", "title": "Function instrumentation hooks the right calls under unique identifiers", "statement": "With --inst-func every direct call with debug information that is neither a debug or lifetime marker nor an intrinsic without floating point is replaced by one hook that calls the same function, no other call is, and all hooks of a program have different identifiers and symbols; the pass never fails.", "quantifier": "for every module: any functions, bodies, calls and debug locations", "why_tests_cant": "Unbounded programs; identifiers must differ over all pairs of calls; the failing modules need unusual debug information.", "anchors": ["src/libvfcfuncinstrument/libVFCFuncInstrument.cpp:runOnModule,haveFloatingPointArithmetic,isLLVMDebugFunction"]}
{"id": "C67", "title": "The hook and the runtime agree on the argument lists, and values pass through", "statement": "For every hooked call the runtime reads from the variable arguments exactly one entry per float, double or pointer argument, in order and with its address, and likewise for the results; the called function receives what the runtime left in the slots, other arguments unchanged, for any number of loaded backends.", "quantifier": "for every signature, call site, number of backends and runtime", "why_tests_cant": "Unbounded signatures; a mismatch in the variable arguments is undefined behaviour that a test may not show.", "anchors": ["src/libvfcfuncinstrument/libVFCFuncInstrument.cpp:InstrumentFunction,allocateMemoryForPointers,initializeInputArgs,initializeOutputArgs", "src/vfcwrapper/funcinstr.c:vfc_enter_function,vfc_exit_function", "src/backends/interflop-backend-vprec/interflop_vprec_function_instrumentation.c:_vprec_enter_function,_vprec_exit_function"]}
{"id": "C68", "title": "Pointer arguments are described with their type and size", "statement": "A pointer argument is passed to the backends with the type of what it points to, and with a number of elements that lie inside the object it points into; pointers to other data are not treated as floating point.", "quantifier": "for every caller, operand and amount of stack", "why_tests_cant": "Needs every chain of address computations; an overestimated size corrupts memory next to the array only.", "anchors": ["src/libvfcfuncinstrument/libVFCFuncInstrument.cpp:getSizeOf,ftypesFromType,haveFloatingPointArithmetic"]}
{"id": "C69", "title": "Checks of deterministic backends compare each probe with its IEEE value", "statement": "For a deterministic backend each probe is compared with the value of the probe of the same test and variable in the IEEE run; an absolute check passes if and only if the exact distance is below the target, a relative check if and only if the distance is below the target times the IEEE value, and probes without a target pass.", "quantifier": "for all probe files, values, targets and ways of summing the targets", "why_tests_cant": "All binary64 values; rounding of the difference and the order of the rows matter only on rare inputs.", "anchors": ["src/tools/ci/test.py:validate_deterministic_probe,run_deterministic"]}
{"id": "C70", "title": "Runs of non-deterministic backends are grouped by probe", "statement": "Every value that a run of a non-deterministic backend records is read back exactly and becomes one sample of the group of its test, variable and backend, and of no other; each group has as many samples as runs that recorded it, and its check tells if the spread is below the target.", "quantifier": "for all runs, executables, names and values", "why_tests_cant": "Depends on names and values that a CSV reader treats specially, on several executables, and on all groups at once.", "anchors": ["src/tools/ci/test.py:read_probes_csv,group_probes,run_non_deterministic", "src/tools/ci/test_data_processing.py:data_processing,validate_probe"]}
{"id": "C71", "title": "The runs of a report have distinct names that select them", "statement": "The names shown for the runs of a report are pairwise distinct, and selecting a name gives the run it was made for.", "quantifier": "for all sets of runs, timestamps, hashes and instants", "why_tests_cant": "Names depend on the age of all runs and on the order; collisions need particular sequences.", "anchors": ["src/tools/ci/vfc_ci_report/helper.py:get_run_name,gen_runs_selection", "src/tools/ci/vfc_ci_report/main.py:193-196"]}
{"id": "C72", "title": "The outlier filter removes few points and whole rows", "statement": "The filter removes exactly the points further than three standard deviations from the mean, hence at most a ninth of them and none of nine or fewer, and what is left of the columns of a plot is what is left of its rows.", "quantifier": "for all lists of values and columns", "why_tests_cant": "A bound over all distributions; degenerate data such as constants.", "anchors": ["src/tools/ci/vfc_ci_report/helper.py:detect_outliers,remove_outliers,remove_boxplot_outliers", "src/tools/ci/vfc_ci_report/compare_runs.py:143-152", "src/tools/ci/vfc_ci_report/inspect_runs.py:193-199"]}
{"id": "C73", "title": "A report shows the most recent runs", "statement": "With --max-files m and --ignore-recent i the report shows the m most recent runs among those left when the i most recent ones are ignored, in the order of time, and reads the data of exactly these.", "quantifier": "for all sets of run files and values of the options", "why_tests_cant": "Needs more runs than the maximum, with all orders of the files.", "anchors": ["src/tools/ci/vfc_ci_report/main.py:99-149", "src/tools/ci/__main__.py:serve"]}
{"id": "C74", "title": "The tables of checks show the selected runs", "statement": "After any sequence of selections, changes of repository and clicks, each table of checks shows the probes with a check of the run whose name is selected above it.", "quantifier": "for all data and sequences of events", "why_tests_cant": "An invariant over event histories of any length.", "anchors": ["src/tools/ci/vfc_ci_report/checks.py:update_non_deterministic_run,update_deterministic_run,change_repo,switch_view"]}
{"id": "C75", "title": "Every run is shown under its repository and branch", "statement": "The name of the repository of each run of a report is made of the last two components of its remote URL and of its branch.", "quantifier": "for all sets of runs from any repositories and branches", "why_tests_cant": "Depends on which URLs and branches occur together.", "anchors": ["src/tools/ci/vfc_ci_report/helper.py:gen_repo_names", "src/tools/ci/vfc_ci_report/main.py:271-276"]}
{"id": "C76", "title": "The report receives the options of vfc_ci serve", "statement": "The directory, logo, maximum number of files and number of ignored files given to vfc_ci serve are the ones that the report reads from its command line.", "quantifier": "for all values of the options", "why_tests_cant": "Paths and URLs of all shapes go through a normalisation meant for paths.", "anchors": ["src/tools/ci/serve.py:run", "src/tools/ci/vfc_ci_report/main.py:58-75"]}
{"id": "C77", "title": "Calls to the PRISM library are made only if both sides pass vectors alike", "statement": "A call from a function of the program to a function of the PRISM library is allowed if and only if the two were compiled for target features under which vectors of every size are passed in the same registers.", "quantifier": "for all lists of target features of both functions", "why_tests_cant": "The features come from compiler flags and attributes of any combination; a wrong answer shows as silently corrupted values on some machines.", "anchors": ["src/libvfcinstrumentprism/TargetFeatures.hpp:TargetFeatures", "src/libvfcinstrumentprism/TargetFeatures.hpp:areABICompatible"]}
{"id": "C78", "title": "The name of a PRISM function determines what it computes", "statement": "Two requests of the PRISM pass have the same function name only if they are for the same operation, type, rounding mode and dispatch; a name is found in the library if and only if the library defines a function of that name, and the function found is the one with the types of the instruction.", "quantifier": "for all operations, vector sizes and libraries", "why_tests_cant": "All sizes and all libraries, overloads included.", "anchors": ["src/libvfcinstrumentprism/libVFCInstrumentPRISM.cpp:getFunctionName", "src/libvfcinstrumentprism/libVFCInstrumentPRISM.cpp:getDemangledNames"]}
{"id": "C79", "title": "The PRISM pass replaces all floating point arithmetic and nothing else", "statement": "Every addition, subtraction, product, division and fused multiply-add on float, double and their vectors is replaced by the function of the library made for it; other instructions are kept, fused operations are replaced only with --inst-fma, and with --prism-backend-strict-abi an operation that cannot be replaced is an error.", "quantifier": "for all instructions, libraries and options", "why_tests_cant": "Quantifies over opcodes, types, feature sets and libraries.", "anchors": ["src/libvfcinstrumentprism/libVFCInstrumentPRISM.cpp:getOpCode,isValidInstruction,getPrismFunction,replaceArithmeticWithPRCall"]}
{"id": "C80", "title": "The calls the PRISM pass inserts are well typed", "statement": "The arguments of each call to the PRISM library have the types of the parameters, and the value obtained has the type of the instruction replaced.", "quantifier": "for all operations, types and function types of the library", "why_tests_cant": "The types of the library depend on the calling convention of the machine it was compiled for.", "anchors": ["src/libvfcinstrumentprism/libVFCInstrumentPRISM.cpp:getOperands,getOperandVector,getReturnValueVector"]}
{"id": "C81", "title": "The PRISM pass instruments the functions selected", "statement": "The functions instrumented by the PRISM pass are those that --function, --include-file and --exclude-file select, as for the other backends.", "quantifier": "for all modules, files and libraries", "why_tests_cant": "Depends on the names defined in libraries.", "anchors": ["src/libvfcinstrumentprism/libVFCInstrumentPRISM.cpp:runOnModule"]}
{"id": "C82", "title": "The function instrumented for PRISM computes what the source says with library operations", "statement": "Running a function after the PRISM pass has the same effects on memory and control flow as running the original function with each replaced operation computed by the library, whatever the order of replacement; every slot used is allocated once; the pass reports that it changed the function.", "quantifier": "for all functions, inputs, numbers of steps and orders of replacement", "why_tests_cant": "Quantifies over all programs and executions; the order depends on addresses in the compiler.", "anchors": ["src/libvfcinstrumentprism/libVFCInstrumentPRISM.cpp:runOnBasicBlock,replaceWithPRCall,getAllocaForVec"]}
{"id": "C83", "title": "The options of the driver reach the instrumentation pass", "statement": "The instrumentation options given to verificarlo are the ones the pass reads: the command the driver builds is split by the shell and read by opt into the same verbosity, operations to instrument, function, include and exclude files, and PRISM modes.", "quantifier": "for all combinations of options and all file names", "why_tests_cant": "Combinations of options, names with special characters.", "anchors": ["verificarlo.in.in:apply_mca_instrumentation_pass,compiler_mode", "src/libvfcinstrument/libVFCInstrument.cpp:60-98", "src/libvfcinstrumentprism/libVFCInstrumentPRISMOptions.hpp:90-152"]}
{"id": "C84", "title": "VPREC emulates the arithmetic of small formats", "statement": "When the precision asked for is less than half that of the type, an operation under VPREC on numbers of the small format gives the exact result rounded once to nearest even, with the gradual underflow and the overflow threshold of that format: computing in float or double and rounding again is not visible.", "quantifier": "for all formats, operations and operands", "why_tests_cant": "Double rounding errors occur for a vanishing proportion of operands; absence needs a proof over all of them.", "anchors": ["src/backends/interflop-backend-vprec/interflop_vprec.c:_vprec_binary32_binary_op,_vprec_binary64_binary_op,_vprec_binary32_ternary_op", "src/backends/interflop-backend-vprec/interflop_vprec.c:_vprec_round_binary32,_vprec_round_binary64"]}
{"id": "C85", "title": "The exploration report says what was found", "statement": "The report of a precision exploration shows every function called once, by decreasing number of calls, with one entry per call site; the links of an entry open the results of the searches for that call site; names given on the command line restrict the report; the page is written.", "quantifier": "for all result tables, orders of ties and command lines", "why_tests_cant": "Each claim is about all tables; coincidences of names and the writing of the page do not show on the sample the tests build, which never run the report.", "anchors": ["src/tools/optimize/report.py:GetFunctionInfo", "src/tools/optimize/report.py:FilterFunctions", "src/tools/optimize/report.py:PlotArgs,PlotOps", "src/tools/optimize/report.py:main"]}
{"id": "C86", "title": "The draws are uniform over a period", "statement": "Over one period of the generator, from any seed, every 64-bit word is returned the same number of times up to one, every multiple of 2^-52 in [0,1) is drawn by get_rand_double01 the same number of times up to one, and the draws minus one half have mean zero and variance 1/12 up to 2^-51.", "quantifier": "for all nonzero states of the generator, over the 2^128-1 states of its period", "why_tests_cant": "A test draws a few million of 2^128 words; a bias of one word or one value of the draw is out of reach of any sample.", "anchors": ["src/interflop-stdlib/rng/xoroshiro128.c:next", "src/interflop-stdlib/rng/xoroshiro128.c:to_double", "src/interflop-stdlib/rng/vfc_rng.c:get_rand_double01"]}
{"id": "C87", "title": "Random rounding is stochastic rounding", "statement": "In rr mode at the precision of the type, an operation whose result in the wide type lies strictly between two consecutive numbers of the type returns one of the two, and returns the one away from zero with a probability equal to the relative position of the result between them; the mean of the results is the result of the wide type.", "quantifier": "for all operations, operands, modes of shifting and seeds; probabilities are proportions of the draws of a full period", "why_tests_cant": "Probabilities below 2^-20 and the exact mean cannot be observed on samples; the failing draw (one half) has probability 2^-52.", "anchors": ["src/backends/interflop-backend-mcaint/interflop_mca_int.c:_noise_binary64,_noise_binary128,_INEXACT", "src/backends/interflop-backend-mcaquad/interflop_mca.c:_noise_binary64,_noise_binary128,_INEXACT", "src/interflop-stdlib/rng/vfc_rng.c:get_rand_uint64,get_rand_double01"]}
{"id": "C88", "title": "One value perturbed on request", "statement": "interflop_call(INTERFLOP_INEXACT_ID, type, address, precision) moves a number by at most about half a unit at the precision asked for (zero or less counts from the precision of the context, zero leaves the numbers of the type unchanged at its own precision), leaves zeros, infinities, NaNs, unknown types and every value in ieee mode as they are, consults no other option, and acts once per mcaquad backend loaded and not for the others.", "quantifier": "for all generators, states, contexts, values, precisions and lists of loaded backends", "why_tests_cant": "The test perturbs one value with a few precisions; the failing draw has probability 2^-52, and the values that a request at full precision changes are powers of two and odd numbers with the draw zero.", "anchors": ["src/backends/interflop-backend-mcaquad/interflop_mca.c:_interflop_usercall_inexact", "src/backends/interflop-backend-mcaquad/interflop_mca.c:_FAST_INEXACT", "src/vfcwrapper/main.c.in:interflop_call", "doc/07-Interflop-usercall-instrumentation.md"]}
{"id": "C89", "title": "An instrumented function computes what its source says", "statement": "Whatever the function, the options and the order in which the pass replaces instructions, the instrumented function, block after block, leaves the memory and takes the branches of its source in which every operation the options ask for, on float, double and vectors of 2, 4, 8 or 16 of them, is done lane by lane by the loaded backends in order, and every other instruction is unchanged; values are only renamed. In particular, if the backends give the results of the machine (MCA in ieee mode without --inst-fma), the program does what it did before instrumentation.", "quantifier": "all functions in SSA form, all control flow, all memories and parameters, all numbers of blocks executed, all orders of replacement, all options, all signatures of wrappers that return the type of the instruction, all backends and backend states", "why_tests_cant": "A test runs a few programs; loops, orders of a set of pointers, and every mix of operations, vector sizes and options are out of reach.", "anchors": ["src/libvfcinstrument/libVFCInstrument.cpp:382-394", "src/libvfcinstrument/libVFCInstrument.cpp:404-524", "src/libvfcinstrument/libVFCInstrument.cpp:545-578", "src/libvfcinstrument/libVFCInstrument.cpp:649-675", "src/vfcwrapper/main.c.in:600-741", "src/backends/interflop-backend-mcaquad/interflop_mca.c:593-650"]}
{"id": "C90", "title": "A program run with the IEEE backend computes what it computes without Verificarlo, and the counters are right", "statement": "A function compiled with any of --inst-fcmp, --inst-fma and --inst-cast and run with the IEEE backend loaded last does to the memory of the program what the function compiled without Verificarlo does, and takes the same branches. With --count-op each counter increases by the number, modulo 2^64, of the scalar operations of its kind in the instructions executed, a vector operation counting for its elements; without it the counters do not change.", "quantifier": "all functions in SSA form, all control flow, all memories and parameters, all numbers of blocks executed, all orders of replacement, all options, all other backends, all operands including NaN, infinities and zeros", "why_tests_cant": "Branches taken on comparisons and numbers of operations depend on all the data of a program; tests run a few programs on a few data.", "anchors": ["src/backends/interflop-backend-ieee/interflop_ieee.c:213-400", "src/backends/interflop-backend-ieee/interflop_ieee.c:568-586", "src/interflop-stdlib/interflop.h:28-45", "src/vfcwrapper/main.c.in:600-741", "src/libvfcinstrument/libVFCInstrument.cpp:382-394", "src/libvfcinstrument/libVFCInstrument.cpp:649-675"]}
{"id": "C91", "title": "Neutral configurations of the backends leave programs unchanged", "statement": "A function compiled without --inst-fcmp and run with one of the following backends loaded last, whatever the other backends, does to the memory of the program what the function compiled without Verificarlo does on a machine with IEEE-754 arithmetic, and takes the same branches: VPREC in ieee mode, VPREC with the ranges and precisions of the types in every mode, bitmask in ieee mode, bitmask without an explicit precision, cancellation with a tolerance no cancellation reaches, MCA in ieee mode.", "quantifier": "all functions in SSA form, all control flow, all memories and parameters, all numbers of blocks executed, all orders of replacement, all options but --inst-fcmp, all other backends, all generators, all operands including NaN, infinities, subnormal numbers and zeros", "why_tests_cant": "Tests compare the outputs of a few programs on a few numbers; ties at half the smallest subnormal number and signs of zero are never among them.", "anchors": ["src/backends/interflop-backend-vprec/interflop_vprec.c:566-769", "src/backends/interflop-backend-vprec/interflop_vprec.c:1148-1162", "src/backends/interflop-backend-bitmask/interflop_bitmask.c:284-518", "src/backends/interflop-backend-bitmask/interflop_bitmask.c:734-748", "src/backends/interflop-backend-cancellation/interflop_cancellation.c:122-201", "src/backends/interflop-backend-cancellation/interflop_cancellation.c:332-346", "src/backends/interflop-backend-mcaquad/interflop_mca.c:593-650", "src/vfcwrapper/main.c.in:600-741"]}
{"id": "C92", "title": "What the logger writes, where, and when an error ends the process", "statement": "For any values of VFC_BACKENDS_LOGGER, VFC_BACKENDS_LOGGER_LEVEL, VFC_BACKENDS_COLORED_LOGGER and VFC_BACKENDS_LOGFILE and any sequence of calls of the logger, exactly the messages of a wanted level are written, in order: debug and info messages on the log file if one is named and on the standard error otherwise, warnings and errors on the standard error. A lower verbosity removes text and adds none. The first error ends the process with status 1. With the logger disabled nothing is written. Each thread has its own file.", "quantifier": "all environments, all hosts, all headers, all finite sequences of calls by any threads, all messages", "why_tests_cant": "No test looks at what the logger writes under more than one setting; the buffer for the file name overflows only with names of more than a thousand characters.", "anchors": ["src/interflop-stdlib/iostream/logger.c:126-318", "doc/02-Backends.md:62-105", "src/vfcwrapper/main.c.in:355"]}
{"id": "C93", "title": "Every service a backend calls is set and is the one it names", "statement": "interflop_set_handler sets the pointer declared under the name it is given and no other, for any name. Started by the wrapper, every backend passes the tests of its pre_init, and every service it or its libraries call is then set to the function of the C library of that name or to one of the wrapper. With any other host, a backend whose pre_init goes through never calls a null pointer.", "quantifier": "all names, all previous contents of the table, all hosts (sequences of settings), all six backends", "why_tests_cant": "The test of __string_equal tries random strings; no test runs a backend in a host that lacks a service.", "anchors": ["src/interflop-stdlib/interflop_stdlib.c:23-115", "src/interflop-stdlib/interflop_stdlib.h:48-133", "src/vfcwrapper/main.c.in:347-380", "src/backends/interflop-backend-bitmask/interflop_bitmask.c:639-679", "src/backends/interflop-backend-cancellation/interflop_cancellation.c:269-306", "src/backends/interflop-backend-mcaquad/interflop_mca.c:702-749", "src/backends/interflop-backend-mcaint/interflop_mca_int.c:586-633", "src/backends/interflop-backend-ieee/interflop_ieee.c:415-463", "src/backends/interflop-backend-vprec/interflop_vprec.c:804-861", "src/interflop-stdlib/rng/vfc_rng.c:40-52"]}
{"id": "C94", "title": "What a backend guarantees of each operation holds of whole instrumented programs", "statement": "If a backend guarantees a relation between the operands and the result of every entry it is called through, then every run of the instrumented function is a run of the source function on a machine whose instrumented operations may return any result in that relation, through the same blocks and with the same memory of the program. In particular: with VPREC every result of the program is the exact result in the chosen format, and the correct rounding of the exact result when the type has more than twice its bits; with bitmask it agrees with the exact result on the kept bits; with cancellation it differs from the machine result by no more than a unit of the last bit kept; with random rounding at the default precision it is one of the two numbers next to the wide result.", "quantifier": "all functions (any number of blocks, loops, vectors, memory), all inputs, all numbers of executed blocks, all states of the random generator, all configurations within the limits stated", "why_tests_cant": "Tests run a few programs under each backend and compare statistics of the outputs; they do not see the results of intermediate operations, and cannot tell a legitimate random result from one outside the guarantee.", "anchors": ["src/libvfcinstrument/libVFCInstrument.cpp:382-394", "src/libvfcinstrument/libVFCInstrument.cpp:649-675", "src/vfcwrapper/main.c.in:600-741", "src/backends/interflop-backend-vprec/interflop_vprec.c:566-769", "src/backends/interflop-backend-bitmask/interflop_bitmask.c:284-518", "src/backends/interflop-backend-cancellation/interflop_cancellation.c:122-201", "src/backends/interflop-backend-mcaint/interflop_mca_int.c:523-576"]}
{"id": "C95", "title": "The debug output of the IEEE backend is the list of the operations of the program", "statement": "With --debug or --debug-binary the IEEE backend writes every operation it is called for, with its operands and its result, and nothing otherwise. With --debug-binary --no-backend-name the text written by an instrumented function can be read back: it is the list of the floating-point operations which the function compiled without Verificarlo executes, in the order of execution and element by element for vectors, with exactly the operands they have there (only the payload of NaNs is lost) and the results of the machine.", "quantifier": "all functions, inputs, numbers of executed blocks, options of the backend, settings of the logger; all numbers of both formats", "why_tests_cant": "Tests compare the output of a handful of operations with a stored text; they cannot show that no operation is missing, doubled, out of order or printed with the operand of another one for all programs and numbers.", "anchors": ["src/backends/interflop-backend-ieee/interflop_ieee.c:65-210", "src/backends/interflop-backend-ieee/interflop_ieee.c:282-400", "src/backends/interflop-backend-ieee/common/printf_specifier.c:113-228", "doc/02-Backends.md:107-140"]}
{"id": "C96", "title": "The error of a program run with MCA is bounded by the virtual precision", "statement": "At virtual precision t every operation of an instrumented program run with an MCA backend is the operation in the wide type with operands (pb, mca) and result (rr, mca) changed by 2^(e-t) at most (2^(e-t+1) with the integer backend), then rounded; results exact at precision t are kept in rr mode. So operations follow the usual model of rounding errors with a unit that depends on t alone, whatever is drawn, and the errors of whole functions are bounded by it.", "quantifier": "all functions, inputs, generators, modes, precisions of the documented interval, options daz, ftz and sparsity; relative errors for all finite operands whose result is neither near the smallest nor near the largest numbers", "why_tests_cant": "Tests look at the spread of the results of a few programs over a few hundred draws; a bound has to hold for every draw and every program.", "anchors": ["src/backends/interflop-backend-mcaquad/interflop_mca.c:267-289", "src/backends/interflop-backend-mcaint/interflop_mca_int.c:_noise_binary64", "doc/02-Backends.md:219-239"]}
{"id": "C97", "title": "The error of a computation without cancellation is bounded by its operations", "statement": "A function that adds, multiplies and divides positive numbers of one type, in any number, order and sharing, compiled with Verificarlo and run with backends whose operations have a relative error of at most e returns a number within q^c of the value in real arithmetic (above and below), where q = 1/(1-e) and c is counted on the program: the errors of both operands of products and quotients, of the worse operand of sums, plus one per operation and one per perturbed operand. With MCA at precision t, e depends on t alone. In particular the sum of n+1 positive numbers is within q^n in rr mode and q^(2n) in mca mode.", "quantifier": "all straight-line programs without subtraction, all positive inputs whose intermediate values stay away from underflow and overflow, both types, all generators, modes, precisions of the documented interval, orders of replacement, other backends loaded before", "why_tests_cant": "Programs and draws are unbounded in number, and the bound is about the worst draw, which sampling does not meet.", "anchors": ["src/libvfcinstrument/libVFCInstrument.cpp:404-524", "src/backends/interflop-backend-mcaint/interflop_mca_int.c:_noise_binary128", "src/backends/interflop-backend-mcaquad/interflop_mca.c:267-289", "doc/02-Backends.md:219-239"]}
{"id": "C98", "title": "Every backend has an error bound, which programs and their samples inherit", "statement": "The IEEE and cancellation backends have errors of half a unit in the last place on operations without cancellation, bitmask of 2^(1-t) and VPREC of 2^-(t+1) (after the rounding of the machine), on operands too in the modes that change them. The conversions from double to single precision that they do have bounds too. Hence a program without subtraction returns a number within c*e/(1-c*e) of the exact value, two executions with any two of these backends differ by the sum of their bounds, and samples that vfc_ci takes for normal are given at least as many significant bits as the bound guarantees.", "quantifier": "all straight-line programs without subtraction, all inputs in range, all configurations within the documented limits, all generators, all numbers of samples", "why_tests_cant": "The bound holds for every draw and every program; a test sees some draws of some programs.", "anchors": ["src/backends/interflop-backend-vprec/interflop_vprec.c:_vprec_round_binary32,_vprec_round_binary64", "src/backends/interflop-backend-bitmask/interflop_bitmask.c", "src/backends/interflop-backend-cancellation/interflop_cancellation.c", "src/backends/interflop-backend-ieee/interflop_ieee.c", "src/tools/ci/test_data_processing.py:35-66"]}
{"id": "C99", "title": "The statistics of a probe describe its samples", "statement": "For the samples of a probe vfc_ci gives the least and largest, quartiles in order between them with the defining numbers of samples on each side, a mean between them, and a standard deviation that is the mean distance of two samples and vanishes only if they are equal; the order of the runs and the unit do not matter; k significant bits mean a standard deviation of at most 2^-k times the mean, so that at most one sample in 4^(k-j) differs from the mean by 2^-j; the check compares the standard deviation, or its quotient by the mean, with the target.", "quantifier": "all lists of samples (as exact numbers), modes, targets, p-values", "why_tests_cant": "All lists of all lengths; the exceptional cases (mean zero, equal samples, few samples) are rarely met.", "anchors": ["src/tools/ci/test_data_processing.py:35-161"]}
{"id": "C100", "title": "Running error analysis of programs with loops, branches and arrays is sound", "statement": "Take a program of floating-point additions, subtractions, multiplications, divisions, comparisons, branches, loops and loads and stores, and an analysis that carries next to each exact value a bound of its error, adds at each operation the error of the operands and of the backend, and refuses operations whose values leave the range of the type, divisors within their error of zero and comparisons of numbers closer than their errors. When the analysis of a run succeeds, the program compiled with Verificarlo and run with any backend of that error takes the same blocks in the same order, and every number in its registers and memory is within the bound that the analysis gives. So two such executions agree on all branches and differ by at most the sum of the bounds. For example the sum of an array of n positive numbers has an error of at most ((1+e)^k-1) times the sum, with k growing with n, for all n.", "quantifier": "all programs of one floating-point type with any control flow, all inputs, numbers of iterations, backends meeting the error contract (IEEE, MCA, integer MCA, VPREC, bitmask), generators and modes", "why_tests_cant": "The number of iterations and the draws are unbounded; whether a branch can be taken the other way is a question about all draws.", "anchors": ["src/libvfcinstrument/libVFCInstrument.cpp:404-563", "src/backends/interflop-backend-mcaint/interflop_mca_int.c:_noise_binary128", "src/backends/interflop-backend-vprec/interflop_vprec.c:_vprec_round_binary32,_vprec_round_binary64", "src/backends/interflop-backend-bitmask/interflop_bitmask.c"]}
{"id": "C101", "title": "The sets found by vfc_ddebug name the operations responsible for the numerical error", "statement": "Take a program instrumented with --ddebug, deterministic but for its backends, and run vfc_ddebug on it from an empty result directory, when a sample in which the backends do all the operations of the reference run fails. The tool ends and reports lines of addr2line. Each reported set names calls of floating-point operations that the program does without Verificarlo, and is such that a sample fails when the backends do exactly the operations called there and the machine all others, and all samples pass when any one of them is given back to the machine. The sets are disjoint, at least one is found, and the operations that no set names pass together. With ddmax the reported set passes and fails with any other call added. The include and exclude files of a configuration list its calls and all others.", "quantifier": "all programs, numbers and addresses of operations, backends and their states, comparison scripts, seeds, numbers of samples, strategies (rddmin, srddmin, drddmin with granularity other than 1, ddmax), orders of directory listings", "why_tests_cant": "The property links the list written by the C wrapper, its hash tables, the text files, md5 names, the cache of results and the recursive searches; it is over all programs and all subsets of their operations.", "anchors": ["src/tools/ddebug/main.py", "src/tools/ddebug/DD_stoch.py:__init__,mergeList,checkReference,run,getDelta0,genExcludeIncludeFile,_test", "src/vfcwrapper/main.c.in:ddebug,ddebug_generate_inclusion,vfc_init"]}
{"id": "C102", "title": "Running error analysis of programs that mix single and double precision is sound", "statement": "Take a program over both types, with additions, subtractions, multiplications, divisions, comparisons, conversions between the types, fused multiply-adds, negations, selects, phi nodes, branches, loops, loads and stores. Compile it with Verificarlo with any of the options --inst-fma, --inst-cast and --inst-fcmp, and run it with any backends that keep an error contract for each type and one for conversions, and that compare as the machine does if they compare. The operations of the options go to the backends, all others to the machine, whose conversions and fused operations round to nearest. When the analysis that carries a bound of the error next to each exact value succeeds, every execution takes the same blocks in the same order, and every number it holds has the type that the analysis gives and is within the bound. Two such executions, compiled with the same options or not, agree on all branches and differ by at most the sum of the bounds. For example the dot product of two arrays of n positive floats, computed in doubles and rounded, has the error of the doubles plus one rounding, for all n.", "quantifier": "all programs of both types with any control flow, all inputs, numbers of iterations, orders in which the pass replaces instructions, backends meeting the error contracts, their states, generators and modes", "why_tests_cant": "The number of iterations and the draws are unbounded, and whether a conversion or a branch can go another way is a question about all draws.", "anchors": ["src/libvfcinstrument/libVFCInstrument.cpp:404-563", "src/vfcwrapper/main.c.in:600-611", "src/backends/interflop-backend-mcaint/interflop_mca_int.c:_noise_binary128", "src/backends/interflop-backend-ieee/interflop_ieee.c"]}
{"id": "C103", "title": "The words after the name of a backend configure it as its options say, and anything else is refused", "statement": "Take any list of words written after the name of one of the six backends in VFC_BACKENDS. If the words spell options of that backend, as --name=value, --name value, an unambiguous beginning of the name, or letters after a hyphen, the backend starts with its defaults changed by what each option says, in order; other backends of the same list are not affected. If a word is no option of the backend, or an option lacks its value or has one too many, the process ends. No command line leads to undefined behaviour or to a configuration outside the limits of the backend.", "quantifier": "all lists of words, backends, values of options, orders and spellings, texts of VFC_BACKENDS, with and without POSIXLY_CORRECT", "why_tests_cant": "Command lines are unbounded, and the keys that the tables, the functions of the backends and the C library agree on must be right for every combination of words.", "anchors": ["src/backends/interflop-backend-mcaquad/interflop_mca.c:parse_opt", "src/backends/interflop-backend-mcaint/interflop_mca_int.c:parse_opt", "src/backends/interflop-backend-bitmask/interflop_bitmask.c:parse_opt", "src/backends/interflop-backend-cancellation/interflop_cancellation.c:parse_opt", "src/backends/interflop-backend-ieee/interflop_ieee.c:parse_opt", "src/backends/interflop-backend-vprec/interflop_vprec.c:parse_opt", "src/backends/interflop-backend-vprec/interflop_vprec_function_instrumentation.c:parse_opt", "src/vfcwrapper/main.c.in:454-507"]}
{"id": "C104", "title": "What VFC_BACKENDS asks for bounds the error of the program that runs under it", "statement": "Take any contents of VFC_BACKENDS (or of the file named by VFC_BACKENDS_FROM_FILE) with which an instrumented process starts, and any program of scalar operations in single and double precision. If the options of the last backend ask for relative errors, the program follows the branches it follows in exact arithmetic and every stored value is within the bound that a running error analysis computes from the precisions and ranges written in the variable, as long as that analysis decides all branches. With VPREC and --precision-binary64=t a dot product of n floats in double precision is within (1+2^-24)((1+2^-53)(1+2^-(t+1)))^(n+1)-1 of the exact one, relatively. If the last backend is the IEEE backend the program does what it does without Verificarlo, whatever the options.", "quantifier": "all texts of the environment variables, options, lists of backends before the last, programs, inputs, generators of random numbers, numbers of steps", "why_tests_cant": "The claim joins the reading of the variable, the option tables, the tables of functions, the compiler pass, the wrapper, the arithmetic of each backend and the whole execution; a test sees one string, one program and one run.", "anchors": ["src/vfcwrapper/main.c.in:378-520", "src/libvfcinstrument/libVFCInstrument.cpp", "src/backends/interflop-backend-vprec/interflop_vprec.c:interflop_init", "src/backends/interflop-backend-mcaquad/interflop_mca.c:interflop_init", "src/backends/interflop-backend-mcaint/interflop_mca_int.c:interflop_init", "src/backends/interflop-backend-bitmask/interflop_bitmask.c:interflop_init", "src/backends/interflop-backend-ieee/interflop_ieee.c:interflop_init"]}
{"id": "C105", "title": "vfc-vtk adds to every single precision array the number of digits its traces agree on", "statement": "Given traces of a program that wrote .vtu files, the tool writes for every array of type Float32 of the first trace an array of the same shape that says for each number -log10 of the standard deviation over the mean of the traces, between 0 and 17 (at least k exactly if the deviation is at most the mean over 10^k), or the deviation with --std; everything else is unchanged, except that with --mean the arrays are replaced by the means. The reference given with -r is used instead of the first trace. If the tool cannot do so, it leaves nothing behind.", "quantifier": "all files, numbers of traces, values, arrays, names, orders of directories, options", "why_tests_cant": "The numbers that matter (negative means, exact zeros, equal traces) and the shapes of files (several arrays, coordinates, repeated names) come in unboundedly many combinations.", "anchors": ["src/tools/vtk/__main__.py:merge_vtu", "src/tools/vtk/__main__.py:postprocess", "src/tools/vtk/__main__.py:find_vtu", "src/tools/vfc-vtk.py"]}
{"id": "C106", "title": "The views that compare runs show what is selected", "statement": "The report of the continuous integration tool starts, and whatever a visitor selects in the views that compare runs (repository, test, variable, backend, number of last runs, text filter, outliers), no callback raises, every selected value is one of those offered, the values offered are those of the selected test and variable, and the plots show exactly the rows of the selected test, variable and backend of the last n runs, ordered by time, each with the name of its run.", "quantifier": "all tables, names of runs, sequences of events of any length", "why_tests_cant": "The widgets form a state machine with callbacks that trigger other callbacks; wrong states need particular sequences of selections on particular tables.", "anchors": ["src/tools/ci/vfc_ci_report/compare_runs.py:update_test", "src/tools/ci/vfc_ci_report/compare_runs.py:update_plots", "src/tools/ci/vfc_ci_report/compare_runs.py:change_repo", "src/tools/ci/vfc_ci_report/deterministic_compare.py:update_plots", "src/tools/ci/vfc_ci_report/main.py"]}
{"id": "C107", "title": "The view that inspects a run shows the groups of the selected run", "statement": "Whatever a visitor selects in the view that inspects one run (run, factor to group by, factor to filter by, value of the filter, repository), no callback raises, the two factors are different, the filter offers exactly the values found in the run, and the plots show one box for each value of the grouping factor among the rows of the run with the value of the filter: its average is that of all the samples of the group, its quartiles are those of the standard deviations of its rows, and different groups have different names on the axis.", "quantifier": "all tables, runs, names, sequences of events of any length", "why_tests_cant": "The state depends on the order of selections, and errors show only for runs without rows, repositories with runs of equal names, and long names.", "anchors": ["src/tools/ci/vfc_ci_report/inspect_runs.py:update_run", "src/tools/ci/vfc_ci_report/inspect_runs.py:update_plots", "src/tools/ci/vfc_ci_report/inspect_runs.py:update_groupby", "src/tools/ci/vfc_ci_report/inspect_runs.py:update_filterby", "src/tools/ci/vfc_ci_report/inspect_runs.py:change_repo", "src/tools/ci/vfc_ci_report/inspect_runs.py:data_processing"]}
{"id": "C108", "title": "The log of the function instrumentation says what happens and changes nothing", "statement": "With --prec-log-file the hooks of the function instrumentation do to the program exactly what they do without, and the log, read line by line, gives back each call and return of a function that uses floating point in order, indented by the number of such functions running, with the precision that the profile prescribes for its operations, and for each argument its value before, its value after, and the format it is rounded to.", "quantifier": "all programs (well nested calls of any number and depth), arguments, profiles, configurations", "why_tests_cant": "The log is text written in pieces by several functions; its order, its depth and the values in it depend on the whole history of calls, and no test reads it.", "anchors": ["src/backends/interflop-backend-vprec/interflop_vprec_function_instrumentation.c:_vfi_print_log", "src/backends/interflop-backend-vprec/interflop_vprec_function_instrumentation.c:_vfi_print_log_helper", "src/backends/interflop-backend-vprec/interflop_vprec_function_instrumentation.c:_vfi_enter_function", "src/backends/interflop-backend-vprec/interflop_vprec_function_instrumentation.c:_vfi_exit_function"]}
{"id": "C109", "title": "The outcome cache of the delta debugger answers as the test and runs no configuration twice", "statement": "After any history of additions the tree of outcomes finds for each configuration the outcome it was last added with and nothing for the others; test with the cache answers what the test answers for every sequence of configurations and runs each set of deltas once; with monotony, the outcome of a superset or subset in the cache is found and, for monotone tests, is the outcome of the test.", "quantifier": "all histories, sequences of configurations, tests and orders of the deltas", "why_tests_cant": "The tree grows with the history; the tests of the cache in the file use a handful of sorted lists of numbers and are not run.", "anchors": ["src/tools/ddebug/DD.py:OutcomeCache", "src/tools/ddebug/DD.py:DD.test"]}
{"id": "C110", "title": "dddiff finds a minimal difference between a passing and a failing configuration", "statement": "For every test of sets of deltas that passes on none and fails on all of them, with any unresolved outcomes, dddiff ends with two nested configurations of which the smaller passes and the larger fails, and their difference; if it has two deltas or more, adding any of them to the smaller and leaving any out of the larger are unresolved; if nothing is unresolved it is a single delta. With the cache no configuration is run twice.", "quantifier": "all lists of distinct deltas, all tests with three outcomes, with and without the assertions on the outcomes", "why_tests_cant": "The search adapts its granularity to the outcomes; minimality is a statement about configurations that depend on the whole search.", "anchors": ["src/tools/ddebug/DD.py:DD._dddiff", "src/tools/ddebug/DD.py:DD.dddiff", "src/tools/ddebug/DD.py:DD.test_and_resolve"]}
{"id": "C111", "title": "The general searches ddmin, ddmax and ddmix end with a 1-minimal result", "statement": "For every test that passes on no delta and does not pass on all of them, each of the searches ends with a non-empty part of the deltas that fails (minimize) or whose rest passes (maximize), which is no longer true when any delta of it is left out.", "quantifier": "all lists of distinct deltas, all tests with three outcomes, the three modes", "why_tests_cant": "Quantifies over all tests and search paths.", "anchors": ["src/tools/ddebug/DD.py:DD._dd", "src/tools/ddebug/DD.py:DD.ddgen", "src/tools/ddebug/DD.py:DD.test_mix"]}
{"id": "C112", "title": "Error analysis with absolute errors, underflow and cancellation is sound", "statement": "Let each operation of a program over both types have a relative error, a larger one if it is a sum that comes out smaller than an operand, and an absolute error. The analysis that carries a bound next to each exact value under these errors is sound: when it succeeds, every execution under any backends that keep to them takes the branches of exact arithmetic, and every stored number is within its bound. The IEEE backend keeps half a unit in the last place or half the smallest number, however small the results; the cancellation backend with tolerance t about 2^(1-t) on sums that cancel, and the machine's error on all other operations; VPREC with the absolute error 2^k at most 2^k, or that and the error of the precision in the combined mode, on operands too in the modes that round them.", "quantifier": "all programs of both types with any control flow, all inputs, tolerances, thresholds, modes, generators that do not draw one half, orders of replacement and numbers of steps", "why_tests_cant": "How much a sum loses depends on all the draws before it, and the bound must hold for every one of them and for results that underflow.", "anchors": ["src/backends/interflop-backend-cancellation/interflop_cancellation.c", "src/backends/interflop-backend-vprec/interflop_vprec.c:handle_binary32_normal_absErr,handle_binary64_normal_absErr", "src/backends/interflop-backend-vprec/interflop_vprec.c:_vprec_round_binary32,_vprec_round_binary64", "src/backends/interflop-backend-ieee/interflop_ieee.c"]}
{"id": "C113", "title": "Error analysis of programs with vectors is sound", "statement": "The analyses of C102 and C112 extended to vectors, element by element, are sound: when an analysis of a program with vectors of 2, 4, 8 or 16 numbers succeeds, the program is instrumented for x86-64, whatever the length of the vector registers, the options and the order of replacement, and every execution under any backends that keep to the errors takes the branches of exact arithmetic and stores numbers within the bounds. So a loop and its vectorized form differ by the sum of their bounds at most.", "quantifier": "all programs with vectors and scalars of both types and any control flow, all inputs, widths of registers, options, orders of replacement, backends that keep to the errors and their states, and numbers of steps", "why_tests_cant": "Each element of each vector has its own errors, and the vectorizer changes the order of the sums; the bounds are for all of them at once.", "anchors": ["src/vfcwrapper/main.c.in:642-692", "src/libvfcinstrument/libVFCInstrument.cpp:318-371", "src/libvfcinstrument/libVFCInstrument.cpp:404-524", "src/libvfcinstrument/libVFCInstrument.cpp:545-578"]}
{"id": "C114", "title": "The mean of a computation under random rounding is its exact value", "statement": "When a function that adds, subtracts and multiplies is compiled and run with the integer MCA backend in rr mode at the precision of its type, the mean of what it returns, over all words of the generator, is the exact value of the expression up to one last bit of the wide type for each operation, although single runs have errors of last bits of the type itself.", "quantifier": "all expressions of any size, all finite parameters without overflow and without products below the normal range, both types, all options of the pass and orders of replacement, and all choices of as many words as there are operations or more", "why_tests_cant": "The mean is over 2^64 words for each operation; samples only estimate it, with an error far larger than the one bound here.", "anchors": ["src/backends/interflop-backend-mcaint/interflop_mca_int.c:523-565", "src/vfcwrapper/main.c.in:600-611", "src/libvfcinstrument/libVFCInstrument.cpp:545-578"]}
{"id": "C115", "title": "The error under random rounding grows with the square root of the number of operations", "statement": "When a function that adds, subtracts and multiplies is compiled and run with the integer MCA backend in rr mode at the precision of its type, the mean square of the error of what it returns, over all words of the generator, is at most the number of operations times the square of the error of one operation (relative to the magnitude of the expression). So the part of the runs whose error is t or more is at most this mean square over t squared, while the bound that holds for all runs grows with the number of operations itself.", "quantifier": "all expressions of any size whose square times the square of the error of one operation is 1 at most, all finite parameters without overflow and without products below the normal range, both types, all options of the pass and orders of replacement, all thresholds, and all choices of as many words as there are operations or more", "why_tests_cant": "The mean is over 2^64 words for each operation. That errors compensate can be observed on samples, but how rare large errors are for every expression cannot.", "anchors": ["src/backends/interflop-backend-mcaint/interflop_mca_int.c:523-565", "src/vfcwrapper/main.c.in:600-611", "src/libvfcinstrument/libVFCInstrument.cpp:545-578"]}
{"id": "C116", "title": "vfc_ci setup loses no commit and publishes only the workflow", "statement": "A run of vfc_ci setup that its checks refuse changes neither files nor branches. However a run ends, every branch, here and on the remote, still has the commits it had, and only the current branch and vfc_ci_<branch> are changed. A run that is finished has committed and pushed the workflow and nothing else on the current branch, has made and pushed the branch of the results as a commit without parents whose only file is the README, and leaves the current branch checked out and the other files as they were.", "quantifier": "all repositories (any history, any branches here and on the remote, any index, files and ignored files), both hosts, all texts of the templates", "why_tests_cant": "It depends on the state of the repository and of its remote; a test sees some histories, and the losses occur with files that are untracked or ignored and with branches that are already there.", "anchors": ["src/tools/ci/setup.py:33-149"]}
{"id": "C117", "title": "Probes of Fortran programs are those of C programs", "statement": "A Fortran program that records probes with the vfc_probes_f module records, counts and writes the probes that a C program with the same calls does: the same names, values and checks.", "quantifier": "all sequences of calls, all names and values, and all contents of the memory behind the names", "why_tests_cant": "The names are read from memory without a length. A test sees the memory of one compiler and one program, where a zero often follows by chance.", "anchors": ["src/common/vfc_probes_f.f90:30-68", "src/common/vfc_probes.c:266-289", "doc/06-Postprocessing.md:183-191"]}
{"id": "C118", "title": "The time and the number of runs that a delta-debugging search reports are right", "statement": "At the end of a search the time printed, in days, hours, minutes and seconds, is the time elapsed cut to seconds, and the two numbers of runs are those of the runs made by the search and of all runs with results kept.", "quantifier": "all times of start and end, and all directories with tested sets, times of files and links", "why_tests_cant": "A test would have to hit the fractions of seconds and count the files itself; the runs counted twice come from links that only successful searches make.", "anchors": ["src/tools/ddebug/DD_exec_stat.py:10-42", "src/tools/ddebug/DD_stoch.py:167-170", "src/tools/ddebug/DD_stoch.py:228-242"]}
{"id": "C119", "title": "The arguments of vfc_ci serve reach the report", "statement": "vfc_ci serve accepts exactly the arguments that its help describes, among them the defaults, and the report is made with the directory, the port, the maximum number of files and the number of ignored files that the user wrote, or with the documented defaults.", "quantifier": "all words given for the options, and all file systems", "why_tests_cant": "The words go through a check, a number, a shell command, a word again and a number again; tests start the server with a few words at most.", "anchors": ["src/tools/ci/__main__.py:35-59", "src/tools/ci/__main__.py:150-234", "src/tools/ci/serve.py:27-62", "src/tools/ci/vfc_ci_report/main.py:53-75"]}
{"id": "C120", "title": "The results of a delta-debugging search are found where the documentation says", "statement": "After a search, dd.line/ddminX/dd.line.include holds the lines of the X-th set found, there is no other ddminX, and dd.line/rddmin-cmp/dd.line.exclude holds exactly the lines of all sets found.", "quantifier": "all programs (lists of lines), all sequences of tests and reports, and all directories left by earlier searches", "why_tests_cant": "The tests of the repository start from a clean directory; what an earlier search leaves depends on how the program changed in between.", "anchors": ["doc/04-DeltaDebug.md:46-54", "src/tools/ddebug/DD_stoch.py:167-170", "src/tools/ddebug/DD_stoch.py:228-265", "src/tools/ddebug/DD_stoch.py:524-554"]}
