import Verif.Base.Outcome
import Verif.Vprec.Model

/-!
# VPREC configuration

Model of the setters, the command line parser, `configure` and `interflop_call`
requests of /repo/src/backends/interflop-backend-vprec/interflop_vprec.c.
`logger_error` terminates the process (interflop-stdlib/iostream/logger.c:252-260),
so every rejected request is `Outcome.exit`.
Not modelled here: option spelling and the dispatch done by `argp` (the request is
the option already recognised plus its argument string), the function
instrumentation options.
-/

namespace Verif.Vprec.Config
open Verif

/-- interflop_vprec.h:72-78. -/
inductive Mode | ieee | full | ib | ob
deriving DecidableEq, Repr

/-- interflop_vprec.h:81-86. -/
inductive ErrMode | rel | abs | all
deriving DecidableEq, Repr

/-- `vprec_context_t` without the function instrumentation, interflop_vprec.h:129-143. -/
structure Cfg where
  prec32 : Int
  range32 : Int
  prec64 : Int
  range64 : Int
  absErrExp : Int
  mode : Mode
  relErr : Bool
  absErr : Bool
  daz : Bool
  ftz : Bool
deriving DecidableEq, Repr

/-- What the rounding reads. -/
def Cfg.ctx (c : Cfg) : Ctx := ⟨c.relErr, c.absErr, c.absErrExp, c.daz, c.ftz⟩

/-- interflop_vprec.c:836-848. -/
def init : Cfg := ⟨23, 8, 52, 11, -1022, .ob, true, false, false, false⟩

/-- interflop_vprec.c:94-106. -/
def setPrec32 (v : Int) (c : Cfg) : Outcome Cfg :=
  if v < 1 then .exit else if 23 < v then .exit else .ok { c with prec32 := v }
/-- interflop_vprec.c:108-120. -/
def setRange32 (v : Int) (c : Cfg) : Outcome Cfg :=
  if v < 2 then .exit else if 8 < v then .exit else .ok { c with range32 := v }
/-- interflop_vprec.c:122-134. -/
def setPrec64 (v : Int) (c : Cfg) : Outcome Cfg :=
  if v < 1 then .exit else if 52 < v then .exit else .ok { c with prec64 := v }
/-- interflop_vprec.c:136-148. -/
def setRange64 (v : Int) (c : Cfg) : Outcome Cfg :=
  if v < 2 then .exit else if 11 < v then .exit else .ok { c with range64 := v }
/-- interflop_vprec.c:86-92 with the enum as an unsigned number. -/
def setMode (m : Nat) (c : Cfg) : Outcome Cfg :=
  match m with
  | 0 => .ok { c with mode := .ieee }
  | 1 => .ok { c with mode := .full }
  | 2 => .ok { c with mode := .ib }
  | 3 => .ok { c with mode := .ob }
  | _ => .exit
/-- interflop_vprec.c:150-171. -/
def setErrMode (m : Nat) (c : Cfg) : Outcome Cfg :=
  match m with
  | 0 => .ok { c with relErr := true, absErr := false }
  | 1 => .ok { c with relErr := false, absErr := true }
  | 2 => .ok { c with relErr := true, absErr := true }
  | _ => .exit

/-- `(int)` applied to a `long` (two's complement wrap, what the supported compilers
do). -/
def toInt (v : Int) : Int := (v + 2 ^ 31) % 2 ^ 32 - 2 ^ 31

/-- interflop_vprec.c:173-175. -/
def setAbsErrExp (v : Int) (c : Cfg) : Outcome Cfg := .ok { c with absErrExp := toInt v }

/-- Value of the longest prefix of decimal digits. -/
def digits : List Char → Nat → Nat
  | ch :: cs, acc => if ch.isDigit then digits cs (acc * 10 + (ch.toNat - 48)) else acc
  | [], acc => acc

/-- C `isspace` in the "C" locale. -/
def isSpace (ch : Char) : Bool :=
  ch = ' ' ∨ ch = '\t' ∨ ch = '\n' ∨ ch = '\x0b' ∨ ch = '\x0c' ∨ ch = '\r'

/-- `_vfc_strtol` (vfcwrapper/main.c.in:299-307): `strtoll` in base ten; `none` when
`errno` is set, that is on overflow.  What follows the digits is ignored, and no
digits at all gives `0` without an error (glibc). -/
def strtol (s : List Char) : Option Int :=
  let s := s.dropWhile isSpace
  let v : Int := match s with
    | '-' :: t => -(digits t 0 : Int)
    | '+' :: t => digits t 0
    | t => digits t 0
  if -(2 ^ 63) ≤ v ∧ v < 2 ^ 63 then some v else none

/-- Presets: interflop_vprec.h:98-126, interflop_vprec.c:192-236 (index) as
`(precision, range)`. -/
def presetVal : Nat → Option (Int × Int)
  | 0 => some (10, 5)
  | 1 => some (23, 8)
  | 2 => some (7, 8)
  | 3 => some (10, 8)
  | 4 => some (16, 7)
  | 5 => some (15, 8)
  | _ => none

/-- Names of the presets, interflop_vprec.c `VPREC_PRESET_STR`. -/
def presetName : String → Option Nat
  | "binary16" => some 0
  | "binary32" => some 1
  | "bfloat16" => some 2
  | "tensorfloat" => some 3
  | "fp24" => some 4
  | "PXR24" => some 5
  | _ => none

/-- Mode names, compared without case: interflop_vprec.c:968-983. -/
def modeName (s : String) : Nat :=
  match s.toLower with
  | "ieee" => 0 | "full" => 1 | "ib" => 2 | "ob" => 3 | _ => 4
/-- interflop_vprec.c:985-1002. -/
def errModeName (s : String) : Nat :=
  match s.toLower with
  | "rel" => 0 | "abs" => 1 | "all" => 2 | _ => 3

/-- A numeric command line option, interflop_vprec.c:902-966. -/
def cliInt (lo hi : Int) (set : Int → Cfg → Outcome Cfg) (arg : String) (c : Cfg) : Outcome Cfg :=
  match strtol arg.toList with
  | none => .exit
  | some v =>
    let v := toInt v
    if v < lo then .exit else if v > hi then .exit else set v c

/-- interflop_vprec.c:1056-1061. -/
def setAll (precision range : Int) (c : Cfg) : Outcome Cfg := do
  let c ← setPrec32 precision c
  let c ← setPrec64 precision c
  let c ← setRange32 range c
  setRange64 range c

/-- `vprec_conf_t`, interflop_vprec.h:145-156; the `unsigned` fields are already
converted to `int`. -/
structure Conf where
  prec32 : Int
  range32 : Int
  prec64 : Int
  range64 : Int
  mode : Nat
  /-- `none` for `(unsigned)-1`. -/
  preset : Option Nat
  errMode : Nat
  /-- `none` for `(unsigned)-1`. -/
  absErrExp : Option Int
  daz : Bool
  ftz : Bool

/-- interflop_vprec.c:1084-1115.  `_set_vprec_daz(context, ctx)` passes a non-null
pointer as a `bool`. -/
def configure (k : Conf) (c : Cfg) : Outcome Cfg := do
  let v ← (match k.preset with
    | none => Outcome.ok (k.prec32, k.prec64, k.range32, k.range64)
    | some i => match presetVal i with
      | none => Outcome.exit
      | some (p, r) => Outcome.ok (p, p, r, r))
  let c ← setPrec32 v.1 c
  let c ← setPrec64 v.2.1 c
  let c ← setRange32 v.2.2.1 c
  let c ← setRange64 v.2.2.2 c
  let c ← setMode k.mode c
  let c ← setErrMode k.errMode c
  let c ← (match k.absErrExp with | none => Outcome.ok c | some e => setAbsErrExp e c)
  let c := if k.daz then { c with daz := true } else c
  return if k.ftz then { c with ftz := true } else c

/-- Everything that can change the configuration at run time. -/
inductive Req
  | cliPrec32 (arg : String)
  | cliRange32 (arg : String)
  | cliPrec64 (arg : String)
  | cliRange64 (arg : String)
  | cliMode (arg : String)
  | cliErrMode (arg : String)
  | cliErrExp (arg : String)
  | cliDaz
  | cliFtz
  | cliPreset (arg : String)
  | configure (k : Conf)
  | callPrec32 (v : Int)
  | callRange32 (v : Int)
  | callPrec64 (v : Int)
  | callRange64 (v : Int)
  | callOther (id : Nat)

/-- `parse_opt` (interflop_vprec.c:893-1066), `configure`, `user_call` (771-791). -/
def step (c : Cfg) : Req → Outcome Cfg
  | .cliPrec32 a => cliInt 1 23 setPrec32 a c
  | .cliRange32 a => cliInt 2 8 setRange32 a c
  | .cliPrec64 a => cliInt 1 52 setPrec64 a c
  | .cliRange64 a => cliInt 2 11 setRange64 a c
  | .cliMode a => setMode (modeName a) c
  | .cliErrMode a => setErrMode (errModeName a) c
  | .cliErrExp a => match strtol a.toList with
    | none => .exit
    | some v => setAbsErrExp v c
  | .cliDaz => .ok { c with daz := true }
  | .cliFtz => .ok { c with ftz := true }
  | .cliPreset a => match presetName a with
    | none => .exit
    | some i => match presetVal i with
      | none => .exit
      | some (p, r) => setAll p r c
  | .configure k => Config.configure k c
  | .callPrec32 v => setPrec32 v c
  | .callRange32 v => setRange32 v c
  | .callPrec64 v => setPrec64 v c
  | .callRange64 v => setRange64 v c
  | .callOther _ => .ok c

/-- A history of requests. -/
def run : Cfg → List Req → Outcome Cfg
  | c, [] => .ok c
  | c, q :: qs => step c q >>= fun c => run c qs

end Verif.Vprec.Config
