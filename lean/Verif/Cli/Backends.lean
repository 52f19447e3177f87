import Verif.Cli.Argp
import Verif.Mca.Config
import Verif.Bitmask.Config
import Verif.Cancel.Config
import Verif.Ieee.Debug
import Verif.Wrapper.Init

/-!
# The options of the six backends

Tables and `parse_opt` of each, on top of the models of what an option does (`Verif.Mca.Config` and others).  The keys `KEY_PREC_B32`, … that
are given no value in their `enum` are numbered from 0.
-/

namespace Verif.Cli
open Verif Verif.Fp

/-- A handler: for the keys it knows, the request made of the argument (`none`: the handler would read a NULL pointer), and what the
request does. -/
def group {C R : Type} (opts : List Opt) (req : Int → Option (Option Word → Option R)) (step : C → R → Outcome C) : Group C :=
  ⟨opts, fun k a c => (req k).map fun f =>
    match f a with
    | none => .ub
    | some r => step c r⟩

/-- `precision-binary32` and `precision-binary64` in MCA, bitmask and VPREC. -/
def optPrec32 : Opt := ⟨"precision-binary32".toList, 0, .required⟩
def optPrec64 : Opt := ⟨"precision-binary64".toList, 1, .required⟩

/-! ## MCA -/

/-- interflop_mca.c:91-111 and 751-771. -/
def mcaquadOpts : List Opt :=
  [optPrec32, optPrec64, ⟨"mode".toList, 'm'.toNat, .required⟩, ⟨"error-mode".toList, 'e'.toNat, .required⟩,
   ⟨"max-abs-error-exponent".toList, 2, .required⟩, ⟨"seed".toList, 's'.toNat, .required⟩, ⟨"daz".toList, 'd'.toNat, .none⟩,
   ⟨"ftz".toList, 'f'.toNat, .none⟩, ⟨"sparsity".toList, 'n'.toNat, .required⟩]

/-- interflop_mca_int.c:54-77 and 635-649: no error modes. -/
def mcaintOpts : List Opt :=
  [optPrec32, optPrec64, ⟨"mode".toList, 'm'.toNat, .required⟩, ⟨"seed".toList, 's'.toNat, .required⟩, ⟨"daz".toList, 'd'.toNat, .none⟩,
   ⟨"ftz".toList, 'f'.toNat, .none⟩, ⟨"sparsity".toList, 'n'.toNat, .required⟩]

/-- The cases of `parse_opt`, interflop_mca.c:773-885 and interflop_mca_int.c:651-735. -/
def mcaReq (be : Mca.Config.Backend) (k : Int) : Option (Option Word → Option Mca.Config.Req) :=
  if k = 0 then some (·.map .cliPrec32)
  else if k = 1 then some (·.map .cliPrec64)
  else if k = 'm'.toNat then some (·.map .cliMode)
  else if k = 'e'.toNat ∧ be = .quad then some (·.map .cliErrMode)
  else if k = 2 ∧ be = .quad then some (·.map .cliErrExp)
  else if k = 's'.toNat then some (·.map .cliSeed)
  else if k = 'd'.toNat then some fun _ => some .cliDaz
  else if k = 'f'.toNat then some fun _ => some .cliFtz
  else if k = 'n'.toNat then some (·.map .cliSparsity)
  else none

def mcaOpts : Mca.Config.Backend → List Opt
  | .quad => mcaquadOpts
  | .int => mcaintOpts

def mcaGroups (be : Mca.Config.Backend) (sd : Word → Option Bits) : List (Group Mca.Config.Cfg) :=
  [group (mcaOpts be) (mcaReq be) (Mca.Config.step be sd)]

/-! ## Bitmask -/

/-- interflop_bitmask.c:59-78 and 528-542. -/
def bitmaskOpts : List Opt :=
  [optPrec32, optPrec64, ⟨"mode".toList, 'm'.toNat, .required⟩, ⟨"operator".toList, 'o'.toNat, .required⟩,
   ⟨"seed".toList, 's'.toNat, .required⟩, ⟨"daz".toList, 'd'.toNat, .none⟩, ⟨"ftz".toList, 'f'.toNat, .none⟩]

/-- interflop_bitmask.c:544-635. -/
def bitmaskReq (k : Int) : Option (Option Word → Option Bitmask.Config.Req) :=
  if k = 0 then some (·.map .cliPrec32)
  else if k = 1 then some (·.map .cliPrec64)
  else if k = 'm'.toNat then some (·.map .cliMode)
  else if k = 'o'.toNat then some (·.map .cliOperator)
  else if k = 's'.toNat then some (·.map .cliSeed)
  else if k = 'd'.toNat then some fun _ => some .cliDaz
  else if k = 'f'.toNat then some fun _ => some .cliFtz
  else none

def bitmaskGroups : List (Group Bitmask.Config.Cfg) := [group bitmaskOpts bitmaskReq Bitmask.Config.step]

/-! ## Cancellation -/

/-- interflop_cancellation.c:59-67 and 205-211. -/
def cancelOpts : List Opt :=
  [⟨"tolerance".toList, 't'.toNat, .required⟩, ⟨"warning".toList, 'w'.toNat, .required⟩, ⟨"seed".toList, 's'.toNat, .required⟩]

/-- interflop_cancellation.c:213-245. -/
def cancelReq (k : Int) : Option (Option Word → Option Cancel.Config.Req) :=
  if k = 't'.toNat then some (·.map .cliTolerance)
  else if k = 'w'.toNat then some (·.map .cliWarning)
  else if k = 's'.toNat then some (·.map .cliSeed)
  else none

def cancelGroups : List (Group Cancel.Config.Cfg) := [group cancelOpts cancelReq Cancel.Config.step]

/-! ## IEEE -/

/-- The options of the context (interflop_ieee.h:27-32), the counters being 0. -/
structure IeeeCfg where
  flags : Ieee.DebugFlags
  countOp : Bool
deriving DecidableEq, Repr

/-- `_ieee_init_context` (interflop_ieee.c:433-445). -/
def ieeeInit : IeeeCfg := ⟨{}, false⟩

/-- interflop_ieee.c:36-54 and 466-477; `KEY_PRINT_SUBNORMAL_NORMALIZED` follows `'o'`. -/
def ieeeOpts : List Opt :=
  [⟨"debug".toList, 'd'.toNat, .none⟩, ⟨"debug-binary".toList, 'b'.toNat, .none⟩, ⟨"no-backend-name".toList, 's'.toNat, .none⟩,
   ⟨"print-new-line".toList, 'n'.toNat, .none⟩, ⟨"print-subnormal-normalized".toList, 'p'.toNat, .none⟩, ⟨"count-op".toList, 'o'.toNat, .none⟩]

inductive IeeeReq | debug | debugBinary | noBackendName | printNewLine | subnormalNormalized | countOp
deriving DecidableEq, Repr

/-- interflop_ieee.c:479-511. -/
def ieeeReq (k : Int) : Option (Option Word → Option IeeeReq) :=
  if k = 'd'.toNat then some fun _ => some .debug
  else if k = 'b'.toNat then some fun _ => some .debugBinary
  else if k = 's'.toNat then some fun _ => some .noBackendName
  else if k = 'n'.toNat then some fun _ => some .printNewLine
  else if k = 'p'.toNat then some fun _ => some .subnormalNormalized
  else if k = 'o'.toNat then some fun _ => some .countOp
  else none

/-- interflop_ieee.c:483-505; `reg`: the host has set `register_printf_specifier`. -/
def ieeeStep (reg : Bool) (c : IeeeCfg) : IeeeReq → Outcome IeeeCfg
  | .debug => .ok { c with flags := { c.flags with debug := true } }
  | .debugBinary => if reg then .ok { c with flags := { c.flags with debugBinary := true } } else .exit
  | .noBackendName => .ok { c with flags := { c.flags with noBackendName := true } }
  | .printNewLine => .ok { c with flags := { c.flags with printNewLine := true } }
  | .subnormalNormalized => .ok { c with flags := { c.flags with subnormalNormalized := true } }
  | .countOp => .ok { c with countOp := true }

def ieeeGroups (reg : Bool) : List (Group IeeeCfg) := [group ieeeOpts ieeeReq (ieeeStep reg)]

/-! ## VPREC -/

/-- The part of the context that function instrumentation is configured by
(interflop_vprec_function_instrumentation.h), the mode as its enumerator: `arguments`, `operations`, `all`, `none`. -/
structure VfiCfg where
  input : Option Word
  output : Option Word
  log : Option Word
  inst : Nat
deriving DecidableEq, Repr

structure VprecCfg where
  base : Vprec.Config.Cfg
  vfi : VfiCfg
deriving DecidableEq

/-- `_vprec_init_context` and `_vfi_init_context` (interflop_vprec_function_instrumentation.c:347-355). -/
def vprecInit : VprecCfg := ⟨Vprec.Config.init, ⟨none, none, none, 3⟩⟩

/-- interflop_vprec.h:54-69 and interflop_vprec.c:45-54, 863-891. -/
def vprecOpts : List Opt :=
  [optPrec32, optPrec64, ⟨"range-binary32".toList, 2, .required⟩, ⟨"range-binary64".toList, 3, .required⟩, ⟨"preset".toList, 8, .required⟩,
   ⟨"mode".toList, 'm'.toNat, .required⟩, ⟨"error-mode".toList, 'e'.toNat, .required⟩, ⟨"max-abs-error-exponent".toList, 4, .required⟩,
   ⟨"daz".toList, 'd'.toNat, .none⟩, ⟨"ftz".toList, 'f'.toNat, .none⟩]

/-- interflop_vprec.c:893-1066. -/
def vprecReq (k : Int) : Option (Option Word → Option Vprec.Config.Req) :=
  if k = 0 then some (·.map fun w => .cliPrec32 (String.ofList w))
  else if k = 1 then some (·.map fun w => .cliPrec64 (String.ofList w))
  else if k = 2 then some (·.map fun w => .cliRange32 (String.ofList w))
  else if k = 3 then some (·.map fun w => .cliRange64 (String.ofList w))
  else if k = 'm'.toNat then some (·.map fun w => .cliMode (String.ofList w))
  else if k = 'e'.toNat then some (·.map fun w => .cliErrMode (String.ofList w))
  else if k = 4 then some (·.map fun w => .cliErrExp (String.ofList w))
  else if k = 'd'.toNat then some fun _ => some .cliDaz
  else if k = 'f'.toNat then some fun _ => some .cliFtz
  else if k = 8 then some (·.map fun w => .cliPreset (String.ofList w))
  else none

/-- interflop_vprec_function_instrumentation.c:43-46 and 144-154. -/
def vfiOpts : List Opt :=
  [⟨"prec-input-file".toList, 5, .required⟩, ⟨"prec-output-file".toList, 6, .required⟩, ⟨"prec-log-file".toList, 7, .required⟩,
   ⟨"instrument".toList, 'i'.toNat, .required⟩]

inductive VfiReq
  | input (w : Word)
  | output (w : Word)
  | log (w : Word)
  | instrument (w : Word)
deriving DecidableEq, Repr

/-- interflop_vprec_function_instrumentation.c:119-142. -/
def vfiReq (k : Int) : Option (Option Word → Option VfiReq) :=
  if k = 5 then some (·.map .input)
  else if k = 6 then some (·.map .output)
  else if k = 7 then some (·.map .log)
  else if k = 'i'.toNat then some (·.map .instrument)
  else none

/-- `_parse_key_instrument` (interflop_vprec_function_instrumentation.c:99-117), without case. -/
def instName (w : Word) : Option Nat :=
  let t := w.map Char.toLower
  if t = "arguments".toList then some 0 else if t = "operations".toList then some 1 else if t = "all".toList then some 2
  else if t = "none".toList then some 3 else none

/-- interflop_vprec_function_instrumentation.c:72-95 and 119-142. -/
def vfiStep (c : VfiCfg) : VfiReq → Outcome VfiCfg
  | .input w => .ok { c with input := some w }
  | .output w => .ok { c with output := some w }
  | .log w => .ok { c with log := some w }
  | .instrument w =>
    match instName w with
    | some i => .ok { c with inst := i }
    | none => .exit

/-- `argp` and `argpc` (interflop_vprec.c:1067-1070): the parser of function instrumentation is a child of that of VPREC. -/
def vprecGroups : List (Group VprecCfg) :=
  [group vprecOpts vprecReq fun c r => Vprec.Config.step c.base r >>= fun b => .ok { c with base := b },
   group vfiOpts vfiReq fun c r => vfiStep c.vfi r >>= fun v => .ok { c with vfi := v }]

/-! ## From `VFC_BACKENDS` to the contexts -/

/-- A configured backend. -/
inductive Ctx
  | mca (be : Mca.Config.Backend) (c : Mca.Config.Cfg)
  | bitmask (c : Bitmask.Config.Cfg)
  | cancel (c : Cancel.Config.Cfg)
  | ieee (c : IeeeCfg)
  | vprec (c : VprecCfg)
deriving DecidableEq

inductive Kind | mcaquad | mcaint | bitmask | cancel | ieee | vprec
deriving DecidableEq, Repr

/-- `pre_init` and `cli` of a backend: the defaults, then the words after the name.  (What `init` does is elsewhere.) -/
def configured (sd : Word → Option Bits) (posix : Bool) (k : Kind) (ws : List Word) : Outcome Ctx :=
  match k with
  | .mcaquad => argpParse posix (mcaGroups .quad sd) ws Mca.Config.init >>= fun c => .ok (.mca .quad c)
  | .mcaint => argpParse posix (mcaGroups .int sd) ws Mca.Config.init >>= fun c => .ok (.mca .int c)
  | .bitmask => argpParse posix bitmaskGroups ws Bitmask.Config.init >>= fun c => .ok (.bitmask c)
  | .cancel => argpParse posix cancelGroups ws Cancel.Config.init >>= fun c => .ok (.cancel c)
  | .ieee => argpParse posix (ieeeGroups true) ws ieeeInit >>= fun c => .ok (.ieee c)
  | .vprec => argpParse posix vprecGroups ws vprecInit >>= fun c => .ok (.vprec c)

/-- What is done for each backend in `vfc_init` (vfcwrapper/main.c.in:474-504), `lib` being the libraries that can be opened.  A blank name
opens the program itself, which has no `interflop_pre_init`. -/
def loadBackend (lib : Word → Option Kind) (sd : Word → Option Bits) (posix : Bool) (argv : List Word) (_ : Unit) : Outcome (Ctx × Unit) :=
  match argv with
  | [] => .exit
  | name :: ws =>
    match lib name with
    | none => .exit
    | some k => configured sd posix k ws >>= fun c => .ok (c, ())

end Verif.Cli
