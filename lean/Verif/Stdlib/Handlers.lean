import Verif.Base.Outcome

/-!
# The services a host gives to a backend

/repo/src/interflop-stdlib/interflop_stdlib.c:23-115, interflop_stdlib.h:48-51, the functions
`_<backend>_check_stdlib` and `pre_init` of the backends, and
/repo/src/vfcwrapper/main.c.in:347-385.

A backend calls the C library only through global function pointers `interflop_<name>`, null at
first and set by name through `interflop_set_handler`.  A C string is the list of its characters
before the closing NUL.
-/

namespace Verif.Stdlib
open Verif

abbrev CStr := List Char

def nul : Char := Char.ofNat 0

/-- `s[i]`: the character, the closing NUL, or a read past the end. -/
def charAt (s : CStr) (i : Nat) : Outcome Char :=
  match s[i]? with
  | some c => .ok c
  | none => if i = s.length then .ok nul else .ub

/-- `length_limit`, interflop_stdlib.c:24. -/
def lengthLimit : Nat := 2048

/-- The `while` of `__string_equal`, :30-34: the index where it stops.  The index grows
to at most `lengthLimit + 1`, which bounds the recursion. -/
def eqLoop (a b : CStr) : Nat → Nat → Outcome Nat
  | 0, i => .ok i
  | fuel + 1, i =>
    charAt a i >>= fun x => charAt b i >>= fun y =>
      if x = y ∧ x ≠ nul ∧ y ≠ nul ∧ i ≤ lengthLimit then eqLoop a b fuel (i + 1) else .ok i

/-- `__string_equal`, :23-41.  `none` is the null pointer. -/
def stringEqual : Option CStr → Option CStr → Outcome Bool
  | some a, some b =>
    eqLoop a b (lengthLimit + 2) 0 >>= fun i =>
    charAt a i >>= fun x => charAt b i >>= fun y => .ok (x == nul && y == nul)
  | _, _ => .ok false

/-- The function pointers, by name (:47-78); `none` is the null pointer. -/
abbrev Table (F : Type) := CStr → Option F

/-- All null, :47-78. -/
def Table.empty {F : Type} : Table F := fun _ => none

/-- `interflop_<n> = f`. -/
def Table.put {F : Type} (t : Table F) (n : CStr) (f : Option F) : Table F :=
  fun m => if m = n then f else t m

/-- The names of the chain of `SET_HANDLER`, :84-114, in order. -/
def chain : List CStr := ["malloc", "fopen", "panic", "strcmp", "strcasecmp", "strtol", "strtod",
  "getenv", "fprintf", "strcpy", "strncpy", "fclose", "gettid", "strerror", "sprintf", "vwarnx",
  "vfprintf", "exit", "strtok_r", "fgets", "free", "calloc", "argp_parse", "nanHandler",
  "infHandler", "maxHandler", "cancellationHandler", "denormalHandler", "debug_print_op",
  "gettimeofday", "register_printf_specifier"].map String.toList

/-- The `else if` chain, :43-45 and 84-114. -/
def setFrom {F : Type} (name : CStr) (f : Option F) (t : Table F) : List CStr → Outcome (Table F)
  | [] => .ok t
  | n :: ns =>
    stringEqual (some name) (some n) >>= fun e => if e then .ok (t.put n f) else setFrom name f t ns

/-- `interflop_set_handler`, :80-115. -/
def setHandler {F : Type} (name : Option CStr) (f : Option F) (t : Table F) : Outcome (Table F) :=
  match name with
  | none => .ok t
  | some name => setFrom name f t chain

/-- A sequence of calls to `interflop_set_handler`. -/
def setAll {F : Type} : List (CStr × Option F) → Table F → Outcome (Table F)
  | [], t => .ok t
  | (n, f) :: r, t => setHandler (some n) f t >>= setAll r

/-- A sequence of `INTERFLOP_CHECK_IMPL`, interflop_stdlib.h:48-51: a missing service
calls `interflop_panic`, taken here to end the process as that of the wrapper does (main.c.in:382-385);
calling it through a null pointer is undefined. -/
def check {F : Type} (t : Table F) : List CStr → Outcome Unit
  | [] => .ok ()
  | n :: ns =>
    if (t n).isNone then (if (t "panic".toList).isNone then .ub else .exit) else check t ns

/-- What a backend asks of its host. -/
structure Services where
  /-- tested by `_<backend>_check_stdlib` -/
  checked : List CStr
  /-- called without a test for null by the backend or by the libraries it is linked with -/
  called : List CStr

/-- `_logger_check_stdlib`, iostream/logger.c:294-305, and the calls of logger.c. -/
def loggerServices : Services where
  checked := ["exit", "fopen", "fprintf", "getenv", "gettid", "sprintf", "strcasecmp", "strerror",
    "vfprintf", "vwarnx"].map String.toList
  called := ["exit", "fopen", "fprintf", "getenv", "gettid", "sprintf", "strcasecmp", "strerror",
    "vfprintf", "vwarnx"].map String.toList

/-- Services called when a generator is seeded, rng/vfc_rng.c:42-50. -/
def rngCalled : List CStr := ["gettimeofday", "gettid"].map String.toList

/-- Services called by the hash map, hashmap/vfc_hashmap.c:83-103, 160-176, 251. -/
def hashmapCalled : List CStr := ["free", "calloc"].map String.toList

inductive Backend where
  | ieee | mcaquad | mcaint | bitmask | cancellation | vprec
deriving DecidableEq, Repr

/-- interflop_ieee.c:415-427 and its calls (:89-91, 406-411, 430, 521, 529-531, printf_specifier.c). -/
def ieeeServices : Services where
  checked := ["malloc", "exit", "fopen", "fprintf", "getenv", "gettid", "sprintf", "strcasecmp",
    "strerror", "vfprintf", "vwarnx"].map String.toList
  called := ["malloc", "panic", "strcasecmp", "getenv", "fprintf", "sprintf",
    "vfprintf"].map String.toList

/-- interflop_mca.c:702-718 and its calls (:721, 785-871, 895, 919-921). -/
def mcaquadServices : Services where
  checked := ["exit", "fopen", "fprintf", "getenv", "gettid", "malloc", "sprintf", "strcasecmp",
    "strerror", "strtod", "strtol", "vfprintf", "vwarnx", "gettimeofday"].map String.toList
  called := ["malloc", "panic", "strcasecmp", "strtol", "strtod", "getenv"].map String.toList ++ rngCalled

/-- interflop_mca_int.c:586-602 and its calls (:605, 662-721, 745). -/
def mcaintServices : Services where
  checked := ["exit", "fopen", "fprintf", "getenv", "gettid", "malloc", "sprintf", "strcasecmp",
    "strerror", "strtod", "strtol", "vfprintf", "vwarnx", "gettimeofday"].map String.toList
  called := ["malloc", "panic", "strcasecmp", "strtol", "strtod"].map String.toList ++ rngCalled

/-- interflop_bitmask.c:639-651 and its calls (:552-616, 654, 687, 707-709). -/
def bitmaskServices : Services where
  checked := ["malloc", "exit", "fopen", "fprintf", "getenv", "gettid", "sprintf", "strcasecmp",
    "strerror", "vfprintf", "vwarnx"].map String.toList
  called := ["malloc", "panic", "strcasecmp", "strtol", "getenv"].map String.toList ++ rngCalled

/-- interflop_cancellation.c:269-281 and its calls (:222-235, 255, 291, 310-312). -/
def cancellationServices : Services where
  checked := ["malloc", "exit", "fopen", "fprintf", "getenv", "gettid", "sprintf", "strcasecmp",
    "strerror", "vfprintf", "vwarnx"].map String.toList
  called := ["malloc", "panic", "strcasecmp", "strtol", "getenv"].map String.toList ++ rngCalled

/-- interflop_vprec.c:804-825 and its calls (:830, 906-1040, 1078, 1116-1118,
interflop_vprec_function_instrumentation.c). -/
def vprecServices : Services where
  checked := ["calloc", "exit", "fclose", "fgets", "fopen", "fprintf", "free", "getenv", "gettid",
    "malloc", "sprintf", "strcasecmp", "strcmp", "strcpy", "strncpy", "strerror", "strtok_r",
    "strtol", "vfprintf", "vwarnx"].map String.toList
  called := ["malloc", "fopen", "panic", "strcmp", "strcasecmp", "strtol", "getenv", "fprintf",
    "strcpy", "fclose", "strerror", "strtok_r", "fgets", "free", "calloc"].map String.toList ++
    hashmapCalled

def services : Backend → Services
  | .ieee => ieeeServices
  | .mcaquad => mcaquadServices
  | .mcaint => mcaintServices
  | .bitmask => bitmaskServices
  | .cancellation => cancellationServices
  | .vprec => vprecServices

/-- The part of `pre_init` before the allocation of the context (interflop_ieee.c:447-454,
interflop_mca.c:738-744, interflop_mca_int.c:622-628, interflop_bitmask.c:668-674,
interflop_cancellation.c:295-301, interflop_vprec.c:850-856): the panic function is set, the services
of the backend are tested, then `logger_init` (logger.c:307-312) sets the panic function again and tests
its own. -/
def preInit {F : Type} (b : Backend) (panic : Option F) (t : Table F) : Outcome (Table F) :=
  setHandler (some "panic".toList) panic t >>= fun t =>
  check t (services b).checked >>= fun _ =>
  setHandler (some "panic".toList) panic t >>= fun t =>
  check t loggerServices.checked >>= fun _ => .ok t

/-- A function of the host: of the C library, or of the wrapper. -/
inductive Fn where
  | libc (name : CStr)
  | wrapper (name : CStr)
deriving DecidableEq, Repr

/-- The calls of `vfc_set_handlers`, main.c.in:351-379. -/
def wrapperHandlers : List (CStr × Option Fn) :=
  let l (s : String) := (s.toList, some (Fn.libc s.toList))
  let w (s f : String) := (s.toList, some (Fn.wrapper f.toList))
  [l "getenv", l "sprintf", l "strerror", w "gettid" "get_tid", l "fopen", l "strcasecmp", l "vwarnx",
   l "fprintf", l "exit", l "vfprintf", l "malloc", l "strcmp", w "strtol" "_vfc_strtol",
   w "strtod" "_vfc_strtod", l "strcpy", l "strncpy", l "fclose", l "fgets", l "strtok_r", l "free",
   l "calloc", l "argp_parse", l "gettimeofday", l "register_printf_specifier",
   w "infHandler" "_vfc_inf_handler", w "nanHandler" "_vfc_nan_handler",
   w "cancellationHandler" "_vfc_cancellation_handler", w "denormalHandler" "_vfc_denormal_handler",
   w "maxHandler" "_vfc_floatmax_handler"]

/-- What the wrapper does with a backend it has just opened: `vfc_set_handlers`, then `pre_init` with
`_vfc_panic` (main.c.in:347-380, 493-500). -/
def startBackend (b : Backend) : Outcome (Table Fn) :=
  setAll wrapperHandlers Table.empty >>= preInit b (some (.wrapper "_vfc_panic".toList))

end Verif.Stdlib
