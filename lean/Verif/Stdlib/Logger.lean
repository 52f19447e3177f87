import Verif.Stdlib.Handlers

/-!
# The logger of the wrapper and of the backends

/repo/src/interflop-stdlib/iostream/logger.c:126-318.  A message is the text its format and arguments
give; the functions with a `va_list` (:262-292) have the same bodies as the others and are not modelled
apart.  The services are those the wrapper sets (C93): `getenv`, `strcasecmp`, `fopen`, ... of the C library.
Writes are recorded in the order of the calls; the buffering of the C library is not modelled.
-/

namespace Verif.Logger
open Verif
open Verif.Stdlib (CStr)

/-- The environment: `getenv`. -/
abbrev Env := CStr → Option CStr

/-- `strcasecmp(a, b) == 0` in the C locale. -/
def caseEq (a b : CStr) : Bool := a.map Char.toLower == b.map Char.toLower

/-- Where text is written: the standard error, or a file. -/
inductive Stream where
  | stderr
  | file (name : CStr)
deriving DecidableEq, Repr

/-- `logger_level_t`, :101-106. -/
inductive Level where
  | debug | info | warning | error
deriving DecidableEq, Repr

def Level.toNat : Level → Nat
  | .debug => 0
  | .info => 1
  | .warning => 2
  | .error => 3

/-- The variables, :30 and 120-124 (`logger_stderr` is the standard error: the wrapper passes it,
main.c.in:430 and 498). -/
structure Vars where
  header : CStr
  enabled : Bool
  colored : Bool
  level : Level
  logfile : Option Stream
deriving DecidableEq, Repr

/-- Initial values, :30 and 120-124. -/
def Vars.initial : Vars := ⟨[], true, false, .info, none⟩

/-- `is_logger_enabled`, :127-136. -/
def isEnabled (e : Env) : Bool :=
  match e "VFC_BACKENDS_LOGGER".toList with
  | none => true
  | some s => if caseEq s "True".toList then true else false

/-- `is_logger_colored`, :139-149. -/
def isColored (e : Env) : Bool :=
  match e "VFC_BACKENDS_COLORED_LOGGER".toList with
  | none => false
  | some s => if caseEq s "True".toList then true else false

/-- `get_logger_level`, :151-166. -/
def getLevel (e : Env) : Level :=
  match e "VFC_BACKENDS_LOGGER_LEVEL".toList with
  | none => .info
  | some s =>
    if caseEq s "debug".toList then .debug
    else if caseEq s "info".toList then .info
    else if caseEq s "warning".toList then .warning
    else if caseEq s "error".toList then .error
    else .info

/-- A process: what it has written, and the status with which it has ended, if it has. -/
structure Proc where
  out : List (Stream × CStr)
  ended : Option Nat
deriving DecidableEq, Repr

def Proc.write (p : Proc) (s : Stream) (t : CStr) : Proc := { p with out := p.out ++ [(s, t)] }

/-- The host: name of the program (`vwarnx`), which files can be opened for appending, messages of
`strerror`. -/
structure Host where
  prog : CStr
  canOpen : CStr → Bool
  strerror : Nat → CStr

/-- `vwarnx`: program name, message and a newline on the standard error. -/
def vwarnx (h : Host) (msg : CStr) (p : Proc) : Proc :=
  p.write .stderr (h.prog ++ ": ".toList ++ msg ++ "\n".toList)

/-- `_interflop_verrx`, :176-179, and `_interflop_err`, :168-174, with `EXIT_FAILURE`. -/
def verrx (h : Host) (msg : CStr) (p : Proc) : Proc := { vwarnx h msg p with ended := some 1 }

/-- The name of the log file, :190-192. -/
def fileName (base : CStr) (tid : Nat) : CStr := base ++ ".".toList ++ (toString tid).toList

/-- `set_logger_logfile`, :181-204, called by thread `tid`.  The name is written in a buffer of 1024
characters.  `fopen` of the C library does not take the third argument (main.c.in:355): `error` stays 0. -/
def setLogfile (h : Host) (e : Env) (tid : Nat) (v : Vars) (p : Proc) : Outcome (Vars × Proc) :=
  match v.logfile with
  | some _ => .ok (v, p)
  | none =>
    match e "VFC_BACKENDS_LOGFILE".toList with
    | none => .ok ({ v with logfile := some .stderr }, p)
    | some base =>
      let name := fileName base tid
      if name.length + 1 > 1024 then .ub
      else if h.canOpen name then .ok ({ v with logfile := some (.file name) }, p)
      else .ok (v, verrx h ("Error [".toList ++ v.header ++ "]: ".toList ++ h.strerror 0) p)

/-- `logger_init`, :307-318, after the tests of the services (C93). -/
def init (h : Host) (e : Env) (tid : Nat) (name : CStr) (v : Vars) (p : Proc) : Outcome (Vars × Proc) :=
  setLogfile h e tid { v with header := name, enabled := isEnabled e, colored := isColored e, level := getLevel e } p

/-- `ESC [ code m`, :51-68. -/
def ansi (code : String) : CStr := [Char.ofNat 27, '['] ++ code.toList ++ ['m']

/-- The color of each level, :91-98. -/
def color : Level → CStr
  | .debug => ansi "1;38;5;250"
  | .info => ansi "1;34"
  | .warning => ansi "1;33"
  | .error => ansi "1;31"

/-- The name of each level, :221-289. -/
def levelName : Level → CStr
  | .debug => "Debug".toList
  | .info => "Info".toList
  | .warning => "Warning".toList
  | .error => "Error".toList

/-- `logger_header`, :206-216. -/
def headerText (v : Vars) (l : Level) : CStr :=
  if v.colored then
    color l ++ levelName l ++ ansi "0" ++ " [".toList ++ ansi "32" ++ v.header ++ ansi "0" ++ "]: ".toList
  else levelName l ++ " [".toList ++ v.header ++ "]: ".toList

/-- The stream of the log; writing through a null `logger_logfile` is undefined. -/
def toLog (v : Vars) (t : CStr) (p : Proc) : Outcome Proc :=
  match v.logfile with
  | none => .ub
  | some s => .ok (p.write s t)

/-- `logger_debug` and `logger_info`, :219-238. -/
def logTrace (v : Vars) (l : Level) (msg : CStr) (p : Proc) : Outcome Proc :=
  if v.enabled ∧ v.level.toNat ≤ l.toNat then
    toLog v (headerText v l) p >>= toLog v msg
  else .ok p

/-- The header of a warning or of an error, :242-244 and 253-255. -/
def alertHeader (v : Vars) (l : Level) (p : Proc) : Proc :=
  if v.enabled ∧ v.level.toNat ≤ l.toNat then p.write .stderr (headerText v l) else p

/-- `logger_warning`, :241-249. -/
def logWarning (h : Host) (v : Vars) (msg : CStr) (p : Proc) : Proc :=
  vwarnx h msg (alertHeader v .warning p)

/-- `logger_error`, :252-260. -/
def logError (h : Host) (v : Vars) (msg : CStr) (p : Proc) : Proc :=
  verrx h msg (alertHeader v .error p)

/-- A call by a thread. -/
structure Call where
  tid : Nat
  level : Level
  msg : CStr
deriving DecidableEq, Repr

/-- One call of the function of its level; a process that has ended does nothing. -/
def call (h : Host) (v : Vars) (c : Call) (p : Proc) : Outcome Proc :=
  match p.ended with
  | some _ => .ok p
  | none =>
    match c.level with
    | .debug => logTrace v .debug c.msg p
    | .info => logTrace v .info c.msg p
    | .warning => .ok (logWarning h v c.msg p)
    | .error => .ok (logError h v c.msg p)

/-- Calls in order. -/
def calls (h : Host) (v : Vars) : List Call → Proc → Outcome Proc
  | [], p => .ok p
  | c :: cs, p => call h v c p >>= calls h v cs

/-- A process that initialises the logger in thread `tid` and then makes calls. -/
def run (h : Host) (e : Env) (tid : Nat) (name : CStr) (cs : List Call) : Outcome Proc :=
  init h e tid name .initial ⟨[], none⟩ >>= fun r => calls h r.1 cs r.2

end Verif.Logger
