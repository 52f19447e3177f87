# Design of the formal model of verificarlo

The source under study is the tree in `/repo` (read only, never built).  The
model is a Lean 4 project in `lean/`; every model definition carries a comment
with the file and lines it transcribes, and says where it simplifies.

## Layout

For each subsystem `X`:

* `Verif/X/Model.lean` (and `Common`, `Config`, `File`, `Select`, ...) -
  transcription of the code, function by function;
* `Verif/X/Lemmas.lean` - helper lemmas;
* `Verif/X/*Props.lean` - the property theorems `Cnn_...`, each followed by
  `example`s with a concrete non trivial instance.  What a property means is
  written there without the helpers of the model: rational numbers, sets,
  partial maps, association lists, texts.

| Directory | Code modelled |
|-----------|---------------|
| `Base` | outcomes, C shifts |
| `Float` | IEEE-754 layer: interchange formats as the C bit-field unions (`sign`, `exponent`, `mantissa`), rational values, hardware addition, product, division and conversion in round-to-nearest-even, double rounding |
| `Vprec` | `vprec_tools.c`, `interflop_vprec.c`: rounding, operations, modes, configuration |
| `Vfi` | `interflop_vprec_function_instrumentation.c`: call stack, profile, argument rounding, profile file |
| `Stdlib` | `float_utils`, `pow2i`, classification; handlers (`interflop_set_handler`, tests of `pre_init`); logger |
| `Rng` | `xoroshiro128.c`, `splitmix64.c`, `vfc_rng.c`: seeding, threads, push/pop |
| `Hash` | `vfc_hashmap.c`, `hashset.c` |
| `Ieee` | `interflop_ieee.c`: comparisons, counters, binary printing (`printf_specifier.c`), debug output |
| `Wrapper` | `vfcwrapper/main.c.in`: backend chain, vector wrappers, ddebug filters, start-up |
| `Bitmask`, `Cancel`, `Mca` | the bitmask, cancellation, mcaquad and mcaint backends |
| `Probes` | `vfc_probes.c` and the text of the values it writes |
| `Pass` | `libVFCInstrument.cpp`: selection of functions, choice of wrapper, replacement |
| `FuncInst` | `libVFCFuncInstrument.cpp`: hooks of calls, argument lists, sizes; the reading side in `funcinstr.c` |
| `Prism` | `libVFCInstrumentPRISM.cpp`, `TargetFeatures.hpp`: features, names, library, calls, replacement in the blocks of a function |
| `Driver` | `verificarlo.in.in`: argument classes, commands, quoting, options of the passes |
| `Ddtool` | `DD.py`, `DD_stoch.py`, `DD_exec_stat.py`, environment of ddebug |
| `Ci` | `tools/ci`: checks of probes, reading and grouping, names, filter and selection of the report, tables, the three views with their callbacks, the command of `vfc_ci serve` |
| `Precexp` | `tools/optimize/precexp.py`, `report.py` |

## Conventions

* **Undefined behaviour is an outcome.**  Functions that can hit C undefined
  behaviour return `Outcome α := ok a | exit | ub`; shifts by a negative or too
  large count, out-of-bounds accesses and uses of uninitialised values give `ub`.
* **Errors are outcomes.**  `logger_error` prints and calls `exit`
  (`src/interflop-stdlib/iostream/logger.c:252`), so it is the terminal outcome
  `exit`.  Divergence is the absence of a result for every amount of fuel.
* **C integers**: bit patterns are `Nat` with explicit `% 2^w` (bit-fields) or
  `BitVec w`; signed arithmetic that cannot overflow for the stated inputs is `Int`.
* **Hardware floating point**: addition, product, division and conversion are modelled exactly
  where the code relies on them (VPREC's `+= half_ulp`, noise injection, computation
  in a wider type); other hardware operations are universally quantified parameters
  of the theorems.
* **Random draws** are universally quantified: backends take a generator `Gen σ`, any
  function from states to 64-bit words.
* **Texts** are `List Char`; numbers in texts go through `strtol` as modelled in
  `Vprec/Config.lean` (blanks, sign, decimal digits, overflow).
* When a property is false of the code, the negation is proved with a concrete
  witness (names such as `..._wrong`, `..._diverges`, `..._lost`, `..._refused`,
  `..._ignored`) and the strongest true part we have is proved, under the suffix
  `_partial` if it has hypotheses the property does not have.  Section
  "Disagreements" lists them.

## Trusted base

* the Lean kernel, and the three standard axioms `propext`, `Classical.choice`,
  `Quot.sound`; no axiom of our own, no `sorry`, no `native_decide`/`bv_decide`
  (last section: axioms of each theorem);
* the transcription from C/C++/Python to Lean (comments give file and lines);
* the C semantics used: two's complement, bit-fields as laid out in
  `float_struct.h`, IEEE-754 round-to-nearest-even hardware, `__float128` with the
  binary128 layout, little-endian words;
* parameters that stand for code outside the tree: `strtod`, the 64-bit hash of
  `hashmap_str_function` where collisions matter, the program under test of the
  delta-debugging and exploration tools, the regular expression engine except for
  the syntax the pass can produce;
* not modelled: memory allocation failure, I/O errors other than those named, LLVM
  itself and the ABI (a parameter in C59), the linker, the shell (except the quoting
  rule used in C49), the spelling and dispatch of options by `argp`, the PRISM
  library (not in the tree), `tools/ci/setup.py`, the plots themselves, the other report tools, the return address used as call site by
  vector wrappers (it depends on inlining), data races other than the interleavings
  of C14, C15, C28.

## Plan per property

| Id | What is modelled | How it is proved |
|----|------------------|------------------|
| C01 | `round_binaryN_normal`, `check_if_binaryN_needs_rounding`, hardware add, overflow branch of `_vprec_round_binaryN`, generic in the format (24/53 bit instances) | arithmetic on significands as integers: truncation after adding half an ulp = nearest-even; spec is "nearest element of the set {m*2^k}", over rationals |
| C02 | `round_binary_denormal`, `..._underflow`, `handle_binaryN_denormal` with the binary128 intermediate | same integer lemma with shifted position; tie at half the smallest subnormal and lost zero sign are disagreements |
| C03 | full `_vprec_round_binaryN` | containment lemma per branch |
| C04 | idem | fixed-point lemma: representable inputs are returned bit for bit |
| C05 | idem | nearest points of a fixed set are monotone |
| C06 | idem | per-branch sign analysis; zero sign is a disagreement |
| C07 | idem with strict and wrapping shift semantics | UB witness + identity proof under wrapping shifts |
| C08 | `handle_binaryN_normal_absErr`, `compute_absErr_vprec_binaryN` | bound on normal path; disagreement on the denormal path |
| C09 | `_vprec_binaryN_*_op` over arbitrary hardware operation | data-flow equations against an independent mode table |
| C10 | setters, presets, user calls as a state machine | invariant by induction over request lists |
| C11 | enter/exit of `funcinstr.c` + `_vfi_enter/exit_function` | invariant by induction over nested call trees; leak through non-FP frames is a disagreement |
| C12 | writer/reader of the profile as text over `List Char` | parser/printer round trip by induction |
| C13 | pointer loop of enter/exit | disagreement: counterexample and partial |
| C14 | call stack array | induction on traces, refinement to a list |
| C15 | per-thread generator states, atomic rank counter, global seed | induction over schedules: projection to one thread |
| C16 | splitmix64, xoroshiro128 on `BitVec` | explicit inverse functions |
| C17 | `to_double`, `get_rand_double01` | bit-level arithmetic, surjectivity by inverse |
| C18 | seeding | disagreement: absorbing zero state reached by one seed per rank; partial: otherwise never zero |
| C19 | `_noise_binary64/128` of mcaint on integers | bound on integer offset of the bit pattern translated to value |
| C20 | idem, shift count | disagreement for large precisions, partial below |
| C21 | `_noise_binary64/128` of mcaquad | exact scaling if draw is not 1/2, counterexample at 1/2 |
| C22 | `_MUST_NOT_BE_NOISED`, `_INEXACT`, operation macros | decision logic for all noise functions |
| C23 | representability test | iff with number-theoretic definition of significant bits |
| C24 | bitmask `_INEXACT` | bit-level + value-level bounds |
| C25 | mask initialisation | disagreement + partial |
| C26 | cancellation macro | decision logic; bound; disagreement at complete cancellation |
| C27 | comparison switch | case analysis; six unordered predicates disagree |
| C28 | counters as atomic increments | induction over interleavings |
| C29 | printf helper | reader inverts printer |
| C30 | wrapper loop + start-up check | induction over the backend list |
| C31 | vector wrappers over state monad | unfolding to a fold over lanes |
| C32 | `ddebug` macro + filter files over the hash map model | refinement to finite sets |
| C33/C34 | `vfc_hashmap.c` | probe-sequence invariant, termination from odd stride on power-of-two table; removal disagrees |
| C35 | `hashset.c` | idem |
| C36 | probes | refinement to an association list, under absence of hash collisions |
| C37/C38/C39 | selection logic, glob-to-regex translation with regex semantics, name construction | decision logic; language equality; finite closure |
| C40-C43 | `DD.py`, `DD_stoch.py` | well-founded recursion and invariants for all oracles |
| C44 | sample directory cache as a crashable state machine | invariants; disagreement on partially written samples |
| C45 | `exponentialRange` | induction |
| C46/C47 | `pow2i`, classification | arithmetic; classification disagrees |
| C48 | tokeniser and argument array | induction; off-by-one disagreement |
| C49 | `shell_escape` + POSIX single-quote rule | round trip when no quote; disagreement otherwise |
| C50 | cast of VPREC | one rounding, through the operation equations of C09 |
| C51 | push/pop of the seed | state machine of the generator |
| C52/C53 | profile counters and bounds | induction over traces |
| C54 | in-place tokenisation of the environment | equation on the string left behind |
| C55 | environment words of ddebug | decision logic |
| C56 | daz/ftz flags of the MCA backends | per-operation equations |
| C57 | wide computation then conversion in ieee mode | double rounding is innocuous: sticky-bit argument on integers |
| C58 | absolute error mode | bound as for C21 |
| C59 | replacement of an instruction by the pass | decision logic and data flow on a small instruction type |
| C60 | classes of the arguments and names of the objects in the driver | decision logic, injectivity |
| C61-C63 | dichotomic search, exploration plan, profile reader and writer of `precexp.py` | fuelled loops with termination proofs; reader/writer round trip against the VPREC reader of C12 |
| C64/C65 | option parsing, setters, `configure` of the MCA, bitmask and cancellation backends | invariant by induction over request lists; meaning of every list of documented options |
| C66 | identifiers and the choice of calls of the function instrumentation pass | numbers strictly increase along the walk; the list of hooked calls equals an independent description |
| C67 | argument lists of hooks against the `va_arg` loops; slots | induction over the signature |
| C68 | `getSizeOf`, pointer types | induction over chains of `getelementptr`; divergence for every fuel |
| C69 | `run_deterministic`, `validate_deterministic_probe` | the rounded difference and quotient are monotone; relative error of one rounding |
| C70 | reading, concatenation and grouping of probe files | groups as a fold: for every key the samples in order |
| C71 | `get_run_name`, `gen_runs_selection` | equal ages are contiguous in time; counting parentheses |
| C72 | `detect_outliers` and its uses | Chebyshev and Samuelson over the rationals |
| C73-C75 | choice of the runs, tables of checks, names of repositories | sorted permutation and prefix; invariant over event lists; injective map commutes with removal of duplicates |
| C76 | command line of the report server | `normpath` is the identity on clean texts, never gives two slashes; words of the command |
| C77 | target features of caller and callee | meaning of a list as a left-to-right fold, register width as a function of the level |
| C78 | names, demangled map | injectivity piece by piece; last occurrence in a fold |
| C79-C81 | choice of instructions, types of calls, choice of functions | decision logic, both directions |
| C82 | replacement inside blocks | simulation: invariant between original and partly replaced function, induction over the order and over steps |
| C83 | command of the driver, words, `cl` options | lexing of concatenations; generic lemma on lists of distinct options |
| C84 | `binaryOp` over IEEE operations | results are on the same side of every midpoint of the small format, which have no exact result near them |
| C85 | report of the exploration | invariant of the table of functions; pictures determined by chart names and suffixes |
| C86 | uniformity of the draws | bijection of the states with pairs (first word, second word), sums over a period as sums over words |
| C87 | random rounding | rounding of patterns: the noise moves the pattern, the threshold is counted over a period; quad noise by monotonicity of rounding |
| C88 | the perturbation of one value on request | bounds of C21 with the rounding to the type; patterns as in C87 at full precision; induction on the loaded backends |
| C89 | instrumented functions | simulation of one replacement at a time: the function before, where the instruction means what it is replaced by, by the function after, values renamed; composition over the order; lanes by induction |
| C90 | programs with the IEEE backend | the backend gives the results of the machine for ten predicates, then C89; counters by induction over the blocks, against the trace of the uninstrumented run |
| C91 | neutral configurations at the level of programs | the operation-level theorems (C09, C25, C26, C57) give transparency of each backend loaded last, then C89 |
| C92 | logger | the text of every stream as a function of the environment and the calls, by induction over the calls |
| C93 | services of the host | loop of `__string_equal` by induction, chain of names, tables of tests and calls per backend |
| C94 | contracts of backends on programs | simulation by a machine with any result the contract allows, after C89; the operation-level theorems (C03, C22, C24, C84, C87) give the contract of each backend |
| C95 | debug output of the IEEE backend, its reading back, the trace of programs | text of each stream by induction on the operations; a parser of the trace; the state of the backends as a fold over the operations of the source |
| C96 | MCA on programs: what is perturbed and by how much, relative errors, the error of a function | contracts of C94 with a relation between a number and the perturbed one; chains of three relative errors |
| C97 | the error of straight-line functions without subtraction; sums of any length | induction on the program, factors between computed and real values; the pass succeeds on all of them |
| C98 | error contracts of the IEEE, cancellation, bitmask and VPREC backends, and of the conversions of all backends; error of programs, distance of two executions, significant bits of samples | contracts of C94 turned into relative errors; Bernoulli; variance about the exact value |
| C99 | statistics of the samples of a probe | sorted lists, counting, Chebyshev, real logarithms |
| C100 | running error analysis of programs with loops, branches, comparisons and arrays; agreement of executions; sum of an array of any length; Newton iteration | abstract domain whose exact instance is the program in the rationals; simulation of compiled runs by runs of the analysis, induction on the run |
| C101 | vfc_ddebug end to end: reference run, list of operations, searches, samples | programs as transition functions run with the filter state; the wrapper run equals a run with a set of calls (C32, C33), texts are read back, names identify sets (C44), searches (C41, C42) |
| C102 | running error analysis of programs of both types: casts, fused operations, negation, selects, phi nodes | as C100 over values with their type; backends do the arithmetic of each type, the fused operations with `--inst-fma` and the conversions with `--inst-cast`, within their contract (C94), the comparisons with `--inst-fcmp` exactly, the machine rounds the others to nearest; induction over blocks, and over turns for the dot product |
| C103 | command lines of the backends: argp, the tables of options, stray words, `VFC_BACKENDS` to contexts | grammar `Reads` of command lines; `getopt_long` finds exactly its reading, by induction over the words; options by name against handlers by key, table by table; then C64, C65, C10, C48 |
| C104 | from `VFC_BACKENDS` to the error of the program: contexts, tables of functions, bounds of each configuration | every context of a started process comes from its words (invariant of the loop); valid configurations meet the contracts of C96 and C98; the checks at start find an IEEE backend when the program was compiled with `--inst-fcmp`; then C102, and C90 for the IEEE backend |
| C105 | `vfc-vtk`: accuracy of arrays, files as lists of sections, directories | thresholds `std * 10^k <= mean` against the logarithm; invariant of the loop over the names: the file after any number of arrays in closed form; witnesses for what fails |
| C106 | views that compare runs: widgets and callbacks as a state machine | invariant `Sound` over all sequences of offered events; witnesses for repositories, filter, outliers; no start without `figure` |
| C107 | view that inspects a run | invariant over all sequences of offered events; weighted average equals the average of the pooled samples; order of quartiles; witnesses |
| C108 | log of the function instrumentation | the hooks with log simulate those without; a parser of the log; the text of a run by induction over its events is that of the entries of its history, each of which is read back (C70 for `%a`) |
| C109 | outcome cache | the tree as a mutual inductive; one `add` changes one path; histories by induction; soundness of the two searches in the tree by induction over it |
| C110 | minimal difference | loop invariant (nested, passing, failing), measure on the length of the difference and the granularity, singletons at the last granularity |
| C111 | `ddgen` | the same loop with a predicate "good" for the three modes |
| C112 | errors relative and absolute, of operations and of conversions | the soundness of C102 for a domain with two relative errors and an absolute one; a contract lemma per backend; for cancellation, rounding is monotone, so that a sum that is not smaller than its operands loses no bits |
| C113 | errors of programs with vectors | the soundness of C102 and C112 element by element; a vector is a word of packed lanes, the wrappers call the backends lane by lane (C89), and vectors are passed in registers or through memory as their length asks |
| C114 | mean under random rounding | a computation that draws words as a tree; one operation as such a tree with two results (C87 gives the counts); means of trees compose, and products of independent results have the product of the means; the compiled function runs the tree (C89) |
| C115 | mean square of errors under random rounding | the trees of C114; the mean square of a sum or product of independent results from their mean squares and means, by induction over the expression; Chebyshev's inequality |
| C116 | `vfc_ci setup` and the repository | the repository as commits, branches, index, files and remote; every step moves branches to descendants; the finished run computed step by step; witnesses for untracked files, a second run, a stale clone, an ignored README and an upstream of another name |
| C117 | probes of Fortran programs | the calls of C36 with names read from memory to the first NUL; equal runs by induction over the calls; witnesses for names without NUL and for the undefined half of the count |
| C118 | time and runs that a search reports | the time from the clock with its end cut to seconds; bounds of floor; the files found as those of the sets and, again, of the links to sets |
| C119 | arguments of `vfc_ci serve` | the checks of the arguments, the command of C76 and the numbers that the report reads from it; decimal writing and reading are inverse |
| C120 | where the results of a search are found | a search as its tests and reports; files are written once, links are those of the last report of a label; by induction over the events |

## Disagreements

Where the code does not do what the property says; the theorem that proves it is in
parentheses.

VPREC
* C02: a tie at half the smallest subnormal does not go to even
  (`C02_half_unit_tie_not_even`).
* C06: the sign of a result that underflows to zero is lost (`C06_zero_sign_lost`).
* C07: the default configuration shifts by a negative amount, which is undefined
  (`C07_default_config_undefined`).
* C08: in absolute mode subnormal results are flushed, beyond the bound
  (`C08_subnormal_flushed`).
* C10: numbers on the command line are converted to `int` before the check
  (`C10_cli_truncation`); the preset `binary64` is refused
  (`C10_preset_binary64_refused`).
* C11: after a call through a function without floating point, the caller keeps the
  precision of another function (`C11_leak`).
* C12: long, empty identifiers and records without arguments are not read back
  (`C12_long_identifier`, `C12_empty_identifier`, `C12_null_arguments`); an
  uninitialised buffer is tokenised at the end of the file
  (`C12_end_of_file_undefined`).
* C13: only the first element of an array is rounded (`C13_second_element`).
* C14: stack overflow, hash collisions, threads (`C14_overflow`, `C14_collision`,
  `C14_interleaved`).
* C53: values over 2^31 are outside the recorded bounds (`C53_large_value`,
  `C53_undefined`).
* C84: the fused multiply-add is rounded twice at every precision from 3 bits on, sums from half the
  precision of the type on, products that underflow with the range of the type, and half the
  smallest number goes away from zero (`C84_fma_rounded_twice32`, `C84_sum_rounded_twice32`,
  `C84_small_product_rounded_twice`, `C84_half_tie_wrong`).

Random numbers
* C18: one seed per thread rank gives the absorbing zero state (`C18_degenerate`,
  `C18_one_bad_seed`).
* C51: a pushed seed is ignored on a generator that has been used
  (`C51_push_used_ignored`); a second push loses the first state
  (`C51_nesting_lost`).

MCA, bitmask, cancellation
* C20, C64: precisions above the width are accepted by the setters of mcaint and shift
  out of range (`C20_accepted_ub`, `C64_mcaint_configure_wrong`).
* C21, C26: the draw one half is a zero whose exponent field is then incremented: huge
  noise (`C21_half_wrong`, `C26_half_wrong`).
* C22: the sparsity draw is per value, not per operation (`C22_sparsity_per_value`).
* C23: representability of subnormals (`C23_subnormal_wrong`).
* C24: the cast perturbs with the `double` mask (`C24_cast_wrong`).
* C25: without an explicit precision the bitmask keeps every bit although it reports
  23/52 (`C25_default_not_applied`).
* C26: complete cancellation in `double` (`C26_complete_cancellation`).
* C56: the cast to float does not flush (`C56_cast_wrong`); the sign of a flushed number is
  lost (`C56_sign_lost`).
* C57: the fused multiply-add is rounded twice (`C57_fma_wrong`).
* C58: mcaint ignores the error mode (`C58_mcaint_ignored`).
* C64: texts that are not numbers are accepted as 0, what follows the digits is ignored
  (`C64_text_wrong`); large precisions wrap (`C64_truncated_wrong`); mcaquad accepts a
  sparsity above 1 (`C64_sparsity_wrong`); both accept NaN (`C64_nan_wrong`); the absent
  exponent of `configure` is 4294967295, not -1 (`C64_sentinel_wrong`).
* C65: the help text of the bitmask lists modes that are refused
  (`C65_bitmask_help_wrong`); `configure` accepts operator 3, undefined behaviour
  (`C65_operator_wrong`), and negative tolerances (`C65_cancel_configure_wrong`);
  `--warning=false` enables the warnings (`C65_warning_wrong`).

IEEE backend, standard library, wrapper
* C27: the six unordered predicates only test for NaN (`C27_wrong_iff`).
* C33, C34, C35: the hash map drops a value stored under two keys and reports removed
  keys; the set misbehaves on 0 and 1 and after removals
  (`C33_same_value_dropped`, `C33_duplicate_key_changes`,
  `C34_removed_still_present`, `C35_removed_still_member`, `C35_one_member`).
* C32: stale sites and long descriptions in the generated file
  (`C32_stale_sites`, `C32_long_description`, `C32_missing_include`).
* C36: duplicates with colliding hashes and line breaks in names are accepted, the
  second dump uses freed memory (`C36_duplicate_wrong`, `C36_newline_wrong`,
  `C36_second_dump`).  The Fortran interface declares the number of probes as
  `C_SIZE_T`, C as `unsigned int` (not modelled).
* C47: no NaN or infinity is ever detected by the library functions
  (`C47_never_detected`).
* C48: 256 words store out of bounds (`C48_256_arguments`); blank fields
  (`C48_blank_field`).
* C54: child processes see only the first word of the configuration (`C54_lost`).

Compiler
* C37, C38: names given to `--function` are regular expressions
  (`C37_function_wrong`); `$` never matches (`C38_dollar_wrong`); the module pattern
  `*` does not match a path without a dot (`C38_star_module_wrong`).
* C49: options with single quotes, options that end like a source, libraries with blanks
  (`C49_quote_wrong`, `C49_unterminated_wrong`, `C49_source_wrong`,
  `C49_library_wrong`).
* C59: `<2 x float>` on x86-64: the call is inserted and the instruction stays
  (`C59_coerced_wrong`); the comparison wrappers of vectors (`C59_cmp_wrong`).
* C60: `a.c` and `a.cpp` share an object; `.c++` is not a source
  (`C60_objects_wrong`, `C60_cxx_wrong`).
* C66: two units that include the same header have hooks of the same symbol
  (`C66_modules_wrong`); the pass crashes on a `main` without debug information
  (`C66_main_debug_wrong`) and naming the parameters of a function that calls through a
  pointer (`C66_indirect_wrong`).
* C67: one `va_list` is passed to all backends (`C67_two_backends_wrong`); `main` with a
  pointer before a number (`C67_main_wrong`).
* C68: every pointer is described as a pointer to `float` (`C68_type_wrong`); sizes ignore
  offsets (`C68_offset_wrong`); parameters passed on at their own position make the pass
  diverge (`C68_forward_wrong`); vectors (`C68_vector_wrong`); `memset` and other
  intrinsics with pointers are hooked (`C68_pointer_is_fp_wrong`, `C68_immarg_wrong`).
* C77: the check accepts callers with wider registers (`C77_wider_wrong`), functions without
  features (`C77_empty_wrong`), and ignores the order of features (`C77_conflict_wrong`); it also
  refuses scalar calls (`C77_scalar_wrong`).
* C78: overloads (`C78_overload_wrong`).
* C79: `llvm.fmuladd` is not `llvm.fma` (`C79_fmuladd_wrong`); `VfclibInstInstrumentFMA` is never
  read (`C79_option_wrong`); `C79_strict_wrong`.
* C80: the coercion of two floats is that of x86-64 (`C80_f32x2_wrong`); vectors passed in memory
  (`C80_byval_wrong`).
* C81: names of library functions (`C81_excluded_wrong`).
* C82: `modified` is never set (`C82_modified_wrong`).
* C83: the PRISM pass has no `-vfclibinst-inst-fcmp` and `-vfclibinst-inst-cast`
  (`C83_prism_wrong`); names are not quoted (`C83_space_wrong`); debug constants are read before
  the command line (`C83_debug_wrong`).

Tools
* C40: the variable INTERFLOP_DD_UNSAFE is ignored (`C40_unsafe_ignored`).
* C42: granularity 1 never ends (`C42_granularity_one_diverges`).
* C44: parallel runs and interrupted runs abort (`C44_parallel_wrong`,
  `C44_interrupt_wrong`).
* C45: a step can exceed the double (`C45_doubling_wrong`).
* C55: the integer form of DD_DICHO_TAB is refused (`C55_int_refused`).
* C61, C62, C63: the precision search never ends when the upper bound is rejected
  (`C61_rejected_diverges`, `C61_missed_diverges`); pointers are taken for other types
  (`C62_pointer_wrong`); fields assigned without a run (`C62_unchecked_wrong`);
  configurations with arguments are refused by VPREC (`C63_arguments_wrong`,
  `C63_arguments_diverge`).
* C69: a distance that rounds to the target (`C69_absolute_wrong`, `C69_relative_wrong`);
  targets that cancel in the sum (`C69_cancel_wrong`); reference rows are taken by position
  (`C69_order_wrong`); targets and IEEE values of zero (`C69_target_zero_wrong`,
  `C69_zero_wrong`).
* C70: NaN and infinite values stop the test (`C70_nan_wrong`, `C70_inf_wrong`); probes called
  `NA`, `null`... vanish (`C70_names_wrong`); executables are mixed
  (`C70_executables_wrong`); `C70_zero_wrong`, `C70_identical_wrong`.
* C71: two runs of the same name (`C71_mixed_wrong`, `C71_alternate_wrong`) or of the same time
  (`C71_same_time_wrong`: commits with the same author date, as after a rebase).
* C72: `detect_outliers` returns the data itself when the deviation is zero
  (`C72_zeros_wrong`); colours and tooltips are not filtered (`C72_failure_wrong`); the
  parameter of `remove_boxplot_outliers` is overwritten (`C72_minimum_wrong`).  Also
  `deterministic_compare.py:92` reads a key that does not exist.
* C73: `head` instead of `tail`: the oldest runs are kept (`C73_recent_wrong`,
  `C73_range_wrong`, against the help of `--max-files` and `--ignore-recent`).
* C74: `self.current_run` instead of `self.current_deterministic_run`
  (`C74_deterministic_wrong`); methods called as functions (`C74_repository_wrong`); a widget
  that does not exist (`C74_click_wrong`).
* C75: duplicates are removed from URLs and branches separately (`C75_same_branch_wrong`,
  `C75_other_branch_wrong`, `C75_two_branches_wrong`).
* C76: `os.path.normpath` on the whole command (`C76_logo_wrong`, `C76_parent_wrong`), no
  quoting (`C76_space_wrong`), values taken for names (`C76_name_wrong`).
* C85: `main` of `report.py` assigns `ReportString`, which is therefore local and has no value
  when it is first read: the page is never written (`C85_never_written`).  The frames returned by
  `drop` are not kept (`C85_selection_wrong`); the rows drawn for "Operations Only" are those of
  the search on both (`C85_opsOnly_wrong`); the directory is not in the chart name
  (`C85_collision_wrong`); names are put in upper case (`C85_case_wrong`).
* C87: random rounding is not stochastic rounding below the normal range of the type, where the
  noise is relative to the exponent of the wide number and much smaller than the spacing
  (`C87_subnormal_wrong`, both numbers that are representable in shape and those that are
  not).  In the quad backend the draw one half makes a huge noise (`C87_half_wrong`, as C21)
  and a result next to a power of two may be rounded to the number below it
  (`C87_power_wrong`).
- C88: the documentation of `INTERFLOP_INEXACT_ID` gives `t = MCALIB_T - precision` for a
  negative precision; the code adds it, so that the result is the current precision minus
  the absolute value (`C88_precision`).  For `FQUAD` a precision of zero or less is used as
  it is: at zero the value one may become zero (`C88_quad_zero_wrong`), and the smallest
  `int` overflows (`C88_overflow`).  The request at the precision of the type, which the
  test of the project takes for neutral, may change powers of two and odd numbers
  (`C88_zero_wrong`); it is neutral for the even ones and below the normal range.  The mode
  (but ieee), the sparsity, the error mode and the flushing options are not consulted
  (`C88_ignored`): in rr mode numbers representable at the precision are perturbed.
- C89: on x86-64 an operation on `<2 x float>` is computed by the wrapper and then by the
  machine, whose result is used (`C89_coerced_wrong`, see C59).  Operands passed by
  reference are copied by an `alloca` at the place of the operation instead of the entry
  block: in a loop the stack grows at each execution until the function returns
  (`C89_stack_wrong`, 128 bytes for a product of `<8 x double>`).
- C90: a comparison `x != y` is the predicate `une`, which the IEEE backend answers by
  `isunordered`: with `--inst-fcmp` the branch of a program on `x != y` is the wrong one
  whenever two numbers differ (`C90_branch_wrong`, see C27).
- C91: with `--inst-cast`, VPREC as it is configured by default (the precisions and ranges of
  `float` and `double`) is not neutral: the conversion of `2^-150` to `float` gives the smallest
  subnormal number instead of 0, and negative numbers that vanish become `+0`
  (`C91_cast_wrong`).
- C92: `VFC_BACKENDS_LOGGER=False` and `VFC_BACKENDS_LOGGER_LEVEL=error` do not suppress warnings,
  only their header (`C92_silence_wrong`); the name of the log file is written with `sprintf` in a
  buffer of 1024 characters (`C92_name_wrong`); `fopen` is called with three arguments, the third
  of which is never written, so the reason of a failure reads "Success" (`C92_reason_wrong`; also
  interflop_vprec_function_instrumentation.c:370-404); the log file is not specific to a thread
  (`C92_threads_wrong`).  The documentation says that colors are removed with
  `VFC_BACKENDS_COLORED_LOGGER=False`; they are off unless the variable is `True`.
- C93: bitmask and cancellation call `strtol` and `gettimeofday` without having tested them
  (`C93_checked_wrong`).
- C95: the header of the debug output goes through the logger and the operation through
  `interflop_fprintf(logger_stderr, ...)`: with `VFC_BACKENDS_LOGFILE` the file gets the headers only
  (`C95_logfile_wrong`).  An operation is written by two to four calls, so that threads mix their
  operations, and a product and a sum can read as a fused multiply-add (`C95_threads_wrong`;
  doc/02-Backends.md:108 says the backend is re-entrant).  With both `--debug` and `--debug-binary`
  only decimals are written.

* **C96 (error of programs under MCA).**  The documentation leaves the size of the noise to the
  definition of the virtual precision; the integer backend adds its noise to the integer image of the
  number, so that it is twice as large when the number moves to the binade above, and the bound
  proved for it is twice that of the quad backend.  With the quad backend a draw of exactly one half
  breaks every bound: the `float` sum of 1 and `2^-24` becomes infinite (`C96_half_wrong`, from C21).

* **C97 (error of computations).**  Bounds exist without subtraction only: with integer MCA in rr mode
  at precision 24 the program for `(1 + 2^-30) - 1` may return 65 times the right value
  (`C97_subtraction_wrong`), which is what MCA is meant to show.

* **C99 (statistics of `vfc_ci`).**  Samples whose mean is zero are given 53 significant bits whatever their
  spread: -1, 0 and 1, which agree on no digit, are reported as exact to the last bit (`C99_zero_mean_wrong`).
  Samples that are all zero have 53 significant bits and fail every relative check, since `0/0` is not below the
  target (`C99_zeros_wrong`).  The Shapiro-Wilk test raises on fewer than three samples: one probe recorded by
  two runs out of a thousand stops `vfc_ci test` before any result is written (`C99_samples`).

* **C101 (`vfc_ddebug` end to end).**  The reference run is given `VFC_DDEBUG_GEN=.../dd.line.%%p`, as if the wrapper replaced
  `%p` by the process number; it does not, the file is created under that very name, without truncation.  When the script starts
  several instrumented processes each overwrites the text of the one before, and what is left of a longer text is read as other
  addresses (`C101_processes_wrong`).  Operations that only perturbed runs do are not in the list and always run natively: the tool may
  say that everything passes where every run with the backends fails (`C101_unvisited_wrong`).  Only `ref` is cleared at the start, so
  that a second invocation after a change of the program reports the old sets (`C101_cache_wrong`).  With `--inst-fma` the filters
  compute `a * b + c` for operations left to the machine while the reference run, under the IEEE backend, fuses; the empty
  configuration fails and all searches stop with an error (`C101_fma_wrong`).  `report_progress` tests the method `get_quiet`
  without calling it (DD_stoch.py:235-237) and so never reports.
- **C103, stray words.**  The keys of options without a letter are numbered from 0 in the enums of MCA, integer MCA, bitmask and VPREC, so that
  `KEY_PREC_B32` is 0, and `ARGP_KEY_ARG`, the key of words that are no options, is 0 too.  A stray word is therefore handled as
  `--precision-binary32=word`, after all options, instead of being refused: `libinterflop_mca.so --ftz 1` sets the precision of floats
  to 1 (`C103_stray_wrong`).  Integer MCA ends the process unless the word is 24.  The model of `argp_parse` (`Verif.Cli.Argp`) follows
  the documentation of the GNU C library; it was compared with the library itself, on tables copied by hand, for 3000 random command
  lines with and without `POSIXLY_CORRECT`, without a difference.
- **C105, `vfc-vtk`.**  `original.copy()` (vtk/__main__.py:106) is a method of the Python implementation of `xml.etree.ElementTree.Element` only; the C
  implementation, which Python 3 uses, has none (checked with Python 3.11), and the tool stops with an exception at the first array of type
  `Float32` (`C105_copy_wrong`), after it has made the output directory, so that a second run is refused (`C105_again_wrong`).  In the
  formula `-log10(std / mean)` a negative mean gives not-a-number, reported as 0 digits (`C105_negative_wrong`); numbers that are exactly
  zero in all traces have 0 digits, all other constants 17 (`C105_equal`).  The documentation speaks of each floating point array; only
  `Float32` is searched (`C105_double_wrong`).  `-r` copies a file to the name of the output directory (`C105_reference_wrong`).
- **C106, the report.**  `compare_runs.py` calls `figure` (289, 335, 369, 404) but imports it nowhere; `main.py` makes this view first, so that the report stops
  with a `NameError` (`C106_start_wrong`).  With the import added: `change_repo` updates variables only if the list of tests or the selected test changes
  (`C106_repository_wrong`); the text filter searches the tests of the repository of the start (`C106_filter_wrong`); the outliers filter of
  `deterministic_compare.py:92` reads `%value_x` (`C106_outliers_wrong`).
- **C107, inspecting a run.**  The list of runs has all runs, also those with deterministic backends only, whose selection raises at `[0]` of an empty list
  (`C107_run_wrong`).  When a repository is changed to one whose last run has the same name, bokeh calls no callback and `current_run` stays
  (`C107_repository_wrong`).  Names are cut to 17 characters on both sides (`C107_names_wrong`).

- **C108, the log of the function instrumentation.**  `mantissa_length` and `exponent_length` are read before a new record is initialised, so the first call shows
  `(0, 0)` (`C108_first_wrong`).  The line of a null pointer has no end (`C108_null_wrong`).  For pointers the beginning of the line is printed before
  the loop and again in it, at the return once more; elements after the first are printed but it is always the first that is rounded
  (`C108_pointer_wrong`); reading them needs memory of the declared size, which the hooks without log do not (`C108_beyond_wrong`).

- **C109, the outcome cache.**  `add` (`DD.py:71-72`) sorts a copy and then goes down the unsorted list (`C109_order_wrong`).  `self.tail.keys()[0]` at line 102
  is Python 2 (`C109_superset_raises`, `C109_monotony_raises`); `oc_test` of the same file therefore raises at line 153.  `lookup_subset` goes down wherever it
  can and `lookup_superset` at the nearest smaller key, so both miss entries (`C109_subset_wrong`, `C109_superset_wrong`).  The tool sets
  `cache_outcomes = False`.
- **C110, dddiff.**  It tests `cs[i] + c1` and returns `c1 + cs[i]` (`C110_order_wrong`).
- **C111, ddmax of `DD.py`.**  `_dd` tests its candidate with `_test` in each round, also in the mode in which the rest is what passes (`C111_ddmax_wrong`).
- **C114, a result used twice.**  It carries one rounding error to both uses, so random rounding does not make the mean exact: `t = 1 + 2^-24; t * t` in single precision has a mean more than `2^-49` above the exact value, the variance of `t` (`C114_false`).
- **C116, `vfc_ci setup`.**  `is_dirty()` does not look at untracked files, and `git add .` then takes them into the commit that is pushed (`C116_untracked_wrong`).  The branch of the results is only made when it is not there: a second run commits on top of it a tree with the README alone (`C116_rerun_wrong`), and in a clone that has it only on the remote the push is rejected, which GitPython reports in a value that setup.py does not read (`C116_stale_wrong`).  A README.md that git ignores is overwritten and then removed (`C116_readme_wrong`).  When the upstream has another name, the push without refspec fails after the commit is made (`C116_upstream_wrong`).
- **C117, probes of Fortran programs.**  The documentation says that arguments can be passed directly; without a NUL after them the names are read on in memory (`C117_direct_wrong`, `C117_names_wrong`).  It says that the functions are the same as in C; the interface has none that makes a check (`C117_no_check`), and it declares the 32-bit result of `vfc_num_probes` as `C_SIZE_T`, whose upper half is undefined (`C117_number_wrong`).
- **C118, what a search reports.**  The start is kept with its fraction and the end is cut to seconds, so that more than a second may be printed as none (`C118_second_wrong`).  The pattern `dd.line/*/dd.run*/dd.run.out` also matches the links `ddmin0`, `rddmin-cmp`, … to the sets found: their runs are counted once more for every link (`C118_counted`, `C118_link_wrong`).  A file of the first clock tick is older than the start (`C118_tick_wrong`).
- **C119, arguments of `vfc_ci serve`.**  `--ignore-recent` is said to default to 0, and 0 is refused when it is written (`C119_zero_wrong`).
- **C120, the directory of a search.**  `vfc_ddebug` clears only `dd.line/ref`.  Links `ddminX` of an earlier search stay when the new one finds fewer sets (`C120_stale_wrong`).  The files of a set are not written again, although its `dd.line.exclude` depends on the program: after a change of the culprit alone, `rddmin-cmp/dd.line.exclude` names the old one (`C120_union_wrong`).  The default algorithm takes single lines as they are (`SsplitDeltas`, DD_stoch.py:390-392) and counts on an earlier report: when the program has only one line there was none, and no `ddmin0` is made (`C120_single_wrong`).

## Axioms of each theorem

`#print axioms` on every theorem of MANIFEST.json: none depends on anything but
`propext`, `Classical.choice` and `Quot.sound`.  By what they use:

* none: `Ddtool.C45_zero`, `Rng.C51_pop_restores`, `Ci.Report.C74_repository_wrong`, `Ieee.C95_names`;
* propext: `Vprec.C06_zero_sign_lost`, `Pass.Mix.C102_typed`, `Ci.Views.C106_imports`, `Pass.Mix.Vec.C113_passed`, `Ddtool.Stat.C118_counted`, `Mca.C19_subnormal_excluded`, `Bitmask.C24_cast_wrong`, `Bitmask.C25_default_not_applied`, `Wrapper.C30_nan`, `Wrapper.C30_cmp_without_backend`, `Wrapper.C32_exclusive`, `Hash.C33_duplicate_key_changes`, `Hash.C34_removed_still_present`, `Hash.C35_removed_still_member`, `Hash.C35_one_member`, `Probes.C36_comma`, `Pass.C39_unique`, `Ddtool.C45_doubling_wrong`, `Wrapper.C48_no_configuration`, `Rng.C51_push_used_ignored`, `Ddtool.C55_words`, `Ddtool.C55_int_refused`, `Pass.C59_kept`, `Pass.C59_cmp_wrong`, `Precexp.C62_pointer_wrong`, `Mca.Config.C64_sentinel_wrong`, `FuncInst.C67_one_backend`, `FuncInst.C68_type_wrong`, `FuncInst.C68_vector_wrong`, `Ci.Report.C72_aligned`, `Ci.Report.C74_deterministic_wrong`, `Ci.Report.C74_click_wrong`;
* propext, Quot.sound: `Vprec.Ops.C09_modes`, `Vprec.Ops.C09_ieee_exact`, `Ddtool.C109_lookup`, `Ddtool.C109_test`, `Ddtool.C109_uncached`, `Ddtool.C109_subset_partial`, `Ddtool.C109_superset_partial`, `Ddtool.C109_monotone_partial`, `Ddtool.C109_order_wrong`, `Ddtool.C109_superset_raises`, `Ddtool.C109_monotony_raises`, `Ddtool.C110_order_wrong`, `Ddtool.C111_ddmax_wrong`, `Ci.Setup.C116_forward`, `Ci.Setup.C116_refused`, `Ci.Setup.C116_untracked_wrong`, `Ci.Setup.C116_rerun_wrong`, `Ci.Setup.C116_stale_wrong`, `Ci.Setup.C116_readme_wrong`, `Ci.Setup.C116_upstream_wrong`, `Ddtool.Stat.C118_link_wrong`, `Ddtool.Links.C120_kept`, `Rng.C15_order_matters`, `Rng.C18_degenerate`, `Rng.C18_one_bad_seed`, `Mca.C20_accepted_ub`, `Mca.C21_half_example`, `Cancel.C26_untouched`, `Wrapper.C30_last`, `Hash.C33_none_is_divergence`, `Hash.C33_get_sound`, `Hash.C33_same_value_dropped`, `Hash.C34_others_unaffected_partial`, `Pass.C38_module`, `Pass.C39_wrapper`, `Ddtool.C44_parallel_wrong`, `Ddtool.C44_interrupt_wrong`, `Stdlib.C47_never_detected`, `Wrapper.C48_from_file`, `Wrapper.C48_round_trip`, `Rng.C51_push_fresh_partial`, `Rng.C51_used_after_draw`, `Rng.C51_nesting_lost`, `Wrapper.C54_one_word_partial`, `Ddtool.C55_parallel`, `Mca.C58_all`, `Precexp.C61_rejected_diverges`, `Precexp.C61_missed_diverges`, `Precexp.C63_save`, `Cancel.Config.C65_cancel_valid`, `Cancel.Config.C65_cancel_configure_wrong`, `FuncInst.C67_transparent`, `FuncInst.C67_result`, `FuncInst.C67_two_backends_wrong`, `FuncInst.C68_array_partial`, `FuncInst.C68_offset_wrong`, `FuncInst.C68_forward_wrong`, `FuncInst.C68_pointer_is_fp_wrong`, `Prism.C77_read`, `Prism.C80_typed_partial`, `Prism.C80_f32x2_wrong`, `Prism.C80_byval_wrong`, `Prism.C82_modified_wrong`, `Mca.C88_precision`, `Mca.C88_ignored`, `Mca.C88_idle`, `Mca.C88_one`, `Mca.C88_quad_zero_wrong`, `Mca.C88_zero_wrong`, `Pass.C89_coerced_wrong`, `Pass.C89_stack_wrong`, `Pass.C91_cast_wrong`, `Pass.C91_tolerance_tight`;
* all three: the 567 others.
