import Verif.Driver.Model
import Verif.Prism.Model

/-!
# The options of the instrumentation passes

Model of the command the driver gives for the instrumentation (`verificarlo.in.in:265-323, 358-394`)
and of what `opt` and the two passes make of it (`libVFCInstrument.cpp:60-98`,
`libVFCInstrumentPRISMOptions.hpp:90-152`).

Simplifications.
* Of `llvm::cl`, the forms the driver uses: a flag, an option with its value in the next word, an
  input file.  Any other word is an error, as is a repeated option or a second input file.
* The words that say which pass to run (`get_opt_pass_args`) are a parameter, and are not parsed.
-/

namespace Verif.Driver

/-- The options of the driver for the PRISM pass. -/
structure PrismArgs where
  /-- `args.prism_backend`. -/
  mode : List Char
  dispatch : List Char
  strict : Bool
  /-- `args.prism_backend_debug`. -/
  debug : List (List Char)
deriving DecidableEq, Repr

/-- The options of the driver for the instrumentation.  A text not given is empty. -/
structure InstArgs where
  verbose : Bool
  fcmp : Bool
  fma : Bool
  cast : Bool
  function : List Char
  includeFile : List Char
  excludeFile : List Char
  prism : Option PrismArgs
deriving DecidableEq, Repr

/-- Files of the installation, and temporary files. -/
structure Paths where
  /-- `opt` and the words before the options. -/
  opt : List Char
  staticLl : List Char
  dynamicLl : List Char
  wrapper : List Char
  ir : List Char
  ins : List Char
deriving DecidableEq, Repr

/-- `PrismModeAction` (`verificarlo.in.in:62-83`) after the check of `choices`
(`verificarlo.in.in:472`): `none` is an error of `argparse`. -/
def prismMode (arg : List Char) : Option (List Char) :=
  if arg = "ud".toList then some "up-down".toList
  else if arg = "sr".toList then some "stochastic-rounding".toList
  else if arg = "up-down".toList ∨ arg = "stochastic-rounding".toList then some arg
  else none

/-- `selectfunction` (`verificarlo.in.in:358-365`). -/
def selectText (a : InstArgs) : List Char :=
  if a.function ≠ [] then " -vfclibinst-function ".toList ++ a.function
  else (if a.includeFile ≠ [] then " -vfclibinst-include-file ".toList ++ a.includeFile else []) ++
    (if a.excludeFile ≠ [] then " -vfclibinst-exclude-file ".toList ++ a.excludeFile else [])

/-- `extra_args` (`verificarlo.in.in:373-389`). -/
def flagText (a : InstArgs) : List Char :=
  (if a.verbose then " -vfclibinst-verbose ".toList else []) ++
  (if a.fcmp then " -vfclibinst-inst-fcmp ".toList else []) ++
  (if a.fma then " -vfclibinst-inst-fma ".toList else []) ++
  (if a.cast then " -vfclibinst-inst-cast ".toList else [])

/-- The loop over the debug modes (`verificarlo.in.in:304-306`). -/
def debugText : List (List Char) → List Char
  | [] => []
  | d :: ds => (if d ≠ [] then " -vfclibinst-debug-".toList ++ d ++ " ".toList else []) ++ debugText ds

/-- What `apply_mca_instrumentation_pass` adds (`verificarlo.in.in:290-309`). -/
def backendText (p : Paths) (a : InstArgs) : List Char :=
  match a.prism with
  | none => " -vfclibinst-vfcwrapper-file ".toList ++ p.wrapper ++ " ".toList
  | some q =>
    " -vfclibinst-mode ".toList ++ q.mode ++ " ".toList ++
    (" -vfclibinst-dispatch ".toList ++ q.dispatch ++ " ".toList) ++
    (" -vfclibinst-prism-static-ir-file ".toList ++ p.staticLl ++ " ".toList) ++
    (" -vfclibinst-prism-dynamic-ir-file ".toList ++ p.dynamicLl ++ " ".toList) ++
    (if q.strict then " -vfclibinst-strict-abi ".toList else []) ++
    (if q.debug ≠ [] then " -vfclibinst-debug ".toList ++ debugText q.debug else [])

/-- The command (`verificarlo.in.in:311-320`). -/
def optCommand (p : Paths) (a : InstArgs) : List Char :=
  p.opt ++ " ".toList ++ (flagText a ++ backendText p a) ++ " ".toList ++ selectText a ++ "  ".toList ++
    p.ir ++ " -o ".toList ++ p.ins

/-! ## `opt` -/

/-- The kinds of options. -/
inductive OptKind where
  | flag | value
deriving DecidableEq, Repr

/-- What `opt` has read. -/
structure Read where
  flags : List (List Char)
  values : List (List Char × List Char)
  inputs : List (List Char)
deriving DecidableEq, Repr

/-- `cl::ParseCommandLineOptions`, after the words that load the pass; `many` are the options that may
be repeated. -/
def optParse (table : List (List Char × OptKind)) (many : List (List Char)) :
    Read → List (List Char) → Outcome Read
  | r, [] => .ok r
  | r, [w] =>
    match table.lookup w with
    | some .flag => if w ∈ r.flags ∧ w ∉ many then .exit else .ok { r with flags := w :: r.flags }
    | some .value => .exit
    | none => if w.head? = some '-' then .exit else
        if r.inputs ≠ [] then .exit else .ok { r with inputs := [w] }
  | r, w :: v :: ws =>
    match table.lookup w with
    | some .flag =>
      if w ∈ r.flags ∧ w ∉ many then .exit
      else optParse table many { r with flags := w :: r.flags } (v :: ws)
    | some .value =>
      if (r.values.lookup w).isSome then .exit
      else optParse table many { r with values := (w, v) :: r.values } ws
    | none => if w.head? = some '-' then .exit else
        if r.inputs ≠ [] then .exit else optParse table many { r with inputs := [w] } (v :: ws)

/-- The options of the pass (`libVFCInstrument.cpp:60-98`), and `-o`. -/
def stdTable : List (List Char × OptKind) :=
  [("-vfclibinst-function".toList, .value), ("-vfclibinst-include-file".toList, .value),
   ("-vfclibinst-exclude-file".toList, .value), ("-vfclibinst-vfcwrapper-file".toList, .value),
   ("-vfclibinst-verbose".toList, .flag), ("-vfclibinst-inst-fcmp".toList, .flag),
   ("-vfclibinst-inst-fma".toList, .flag), ("-vfclibinst-inst-cast".toList, .flag),
   ("-o".toList, .value)]

/-- The options of the PRISM pass (`libVFCInstrumentPRISMOptions.hpp:90-152`), and `-o`. -/
def prismTable : List (List Char × OptKind) :=
  [("-vfclibinst-function".toList, .value), ("-vfclibinst-include-file".toList, .value),
   ("-vfclibinst-exclude-file".toList, .value), ("-vfclibinst-prism-dynamic-ir-file".toList, .value),
   ("-vfclibinst-prism-static-ir-file".toList, .value), ("-vfclibinst-verbose".toList, .flag),
   ("-vfclibinst-mode".toList, .value), ("-vfclibinst-dispatch".toList, .value),
   ("-vfclibinst-inst-fma".toList, .flag), ("-vfclibinst-debug".toList, .flag),
   ("-vfclibinst-strict-abi".toList, .flag), ("-vfclibinst-debug-getoperands".toList, .flag),
   ("-vfclibinst-debug-targetfeatures".toList, .flag), ("-vfclibinst-debug-abi".toList, .flag),
   ("-o".toList, .value)]

/-- The values of `VfclibInstDebugOptions`, a `cl::bits`, which may be repeated
(`libVFCInstrumentPRISMOptions.hpp:144-152`). -/
def debugOptions : List (List Char) :=
  ["-vfclibinst-debug-getoperands".toList, "-vfclibinst-debug-targetfeatures".toList,
   "-vfclibinst-debug-abi".toList]

/-- `opt` with one of the passes. -/
def runOpt (prism : Bool) (ws : List (List Char)) : Outcome Read :=
  optParse (if prism then prismTable else stdTable) debugOptions ⟨[], [], []⟩ ws

/-- Value of an option, empty by default. -/
def Read.value (r : Read) (name : List Char) : List Char := (r.values.lookup name).getD []

/-- The flag is there. -/
def Read.flag (r : Read) (name : List Char) : Bool := decide (name ∈ r.flags)

/-- `target_features_debug` and `target_features_debug_abi` (`TargetFeatures.hpp:21-25`): constants
initialised when the pass is loaded, before `opt` reads the options that follow on the command line. -/
def featureDebug (_ : Read) : Bool × Bool :=
  let atLoad : Read := ⟨[], [], []⟩
  (atLoad.flag "-vfclibinst-debug-targetfeatures".toList,
   atLoad.flag "-vfclibinst-debug".toList && atLoad.flag "-vfclibinst-debug-abi".toList)

end Verif.Driver
