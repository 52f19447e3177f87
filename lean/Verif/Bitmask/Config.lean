import Verif.Bitmask.Model
import Verif.Vprec.Config

/-!
# Configuration of the bitmask backend, from texts

`Bitmask.parseOpt` takes parsed values; here the argument texts, the seed, the operator as the raw
enum `configure` passes, and the information header.
-/

namespace Verif.Bitmask.Config
open Verif Verif.Fp
open Verif.Vprec.Config (strtol toInt)

/-- `bitmask_context_t` (interflop_bitmask.h:51-60): the operator as a number. -/
structure Cfg where
  base : Ctx
  operator : Nat
  chooseSeed : Bool
  seed : BitVec 64
deriving DecidableEq, Repr

/-- interflop_bitmask.c:657-666. -/
def init : Cfg := ⟨Bitmask.init, 0, false, 0⟩

/-- interflop_bitmask.h:43-48. -/
def operatorOf : Nat → Option Operator
  | 0 => some .zero
  | 1 => some .one
  | 2 => some .rand
  | _ => none

/-- interflop_bitmask.h:34-40. -/
def modeOf : Nat → Option Mode
  | 0 => some .ieee
  | 1 => some .full
  | 2 => some .ib
  | 3 => some .ob
  | _ => none

/-- `strcasecmp` with the names (interflop_bitmask.c:575-593). -/
def modeName (s : List Char) : Option Mode :=
  let t := s.map Char.toLower
  if t = "ieee".toList then some .ieee else if t = "full".toList then some .full
  else if t = "ib".toList then some .ib else if t = "ob".toList then some .ob else none

/-- interflop_bitmask.c:594-611. -/
def operatorName (s : List Char) : Option Nat :=
  let t := s.map Char.toLower
  if t = "zero".toList then some 0 else if t = "one".toList then some 1
  else if t = "rand".toList then some 2 else none

/-- interflop_bitmask.c:125-133. -/
def setMode (m : Nat) (c : Cfg) : Outcome Cfg :=
  match modeOf m with
  | some m => .ok { c with base := { c.base with mode := m } }
  | none => .exit

/-- interflop_bitmask.c:135-144: `_bitmask_operator_end_`, 3, passes. -/
def setOperator (o : Nat) (c : Cfg) : Outcome Cfg :=
  if 3 < o then .exit
  else .ok { c with operator := o, base := { c.base with op := (operatorOf o).getD c.base.op } }

/-- `bitmask_conf_t`. -/
structure Conf where
  seed : BitVec 64
  prec32 : Int
  prec64 : Int
  mode : Nat
  operator : Nat
  daz : Bool
  ftz : Bool

inductive Req
  | cliPrec32 (arg : List Char)
  | cliPrec64 (arg : List Char)
  | cliMode (arg : List Char)
  | cliOperator (arg : List Char)
  | cliSeed (arg : List Char)
  | cliDaz
  | cliFtz
  | configure (k : Conf)

/-- The options that `Bitmask.parseOpt` covers. -/
def opt (o : Opt) (c : Cfg) : Outcome Cfg := do
  let b ← parseOpt c.base o
  return { c with base := b }

/-- interflop_bitmask.c:693-703. -/
def configure (k : Conf) (c : Cfg) : Outcome Cfg := do
  let c : Cfg := { c with chooseSeed := true, seed := k.seed }
  let b ← setPrec32 k.prec32 c.base
  let b ← setPrec64 k.prec64 b
  let c ← setMode k.mode { c with base := b }
  let c ← setOperator k.operator c
  return { c with base := { c.base with daz := k.daz, ftz := k.ftz } }

/-- `parse_opt` (interflop_bitmask.c:544-635) and `configure` (693-703). -/
def step (c : Cfg) : Req → Outcome Cfg
  | .cliPrec32 a => opt (.prec32 ((strtol a).map toInt)) c
  | .cliPrec64 a => opt (.prec64 ((strtol a).map toInt)) c
  | .cliMode a => opt (.mode (modeName a)) c
  | .cliOperator a => match operatorName a with
    | none => .exit
    | some o => setOperator o c
  | .cliSeed a => match strtol a with
    | none => .exit
    | some v => .ok { c with chooseSeed := true, seed := BitVec.ofInt 64 v }
  | .cliDaz => opt .daz c
  | .cliFtz => opt .ftz c
  | .configure k => Config.configure k c

def run : List Req → Cfg → Outcome Cfg
  | [], c => .ok c
  | q :: qs, c => step c q >>= run qs

/-- `print_information_header` (705-728) reads `BITMASK_OPERATOR_STR[operator]`, three entries;
`VFC_BACKENDS_SILENT_LOAD` skips it. -/
def header (silent : Bool) (c : Cfg) : Outcome Unit :=
  if silent then .ok () else if (operatorOf c.operator).isSome then .ok () else .ub

/-- `_inexact_binary32`, `_inexact_binary64` with the raw operator: an unknown one reaches
`__builtin_unreachable` (314-325). -/
def inexactG {σ : Type} (g : Gen σ) (T : Ty) (c : Cfg) (s : σ) (x : Bits) : Outcome (Bits × σ) :=
  if mustNotBeNoised T.fmt c.base.mode (c.base.prec T) x then .ok (x, s)
  else match operatorOf c.operator with
    | none => .ub
    | some o => Bitmask.inexactG g T { c.base with op := o } s x

end Verif.Bitmask.Config
