import Verif.Float.Double
import Verif.Ieee.Cmp
import Verif.Ieee.Print
import Verif.Stdlib.Logger

/-!
# The debug output of the IEEE backend

`debug_print` and the macro `DEBUG_PRINT`: /repo/src/backends/interflop-backend-ieee/interflop_ieee.c:65-210,
and what the functions of the backend give to it, :282-400.

Simplifications: the decimal text of a number (`%g`) is a parameter.  The numbers of the texts of `%b` are
those of `Verif.Ieee.Print`.  The buffer of 256 characters for the format (:103) is not modelled: the formats have
16 at most.
-/

namespace Verif.Ieee
open Verif Verif.Fp
open Verif.Stdlib (CStr)

/-- The options of the context that the output depends on (`interflop_ieee.h:27-31`). -/
structure DebugFlags where
  debug : Bool := false
  debugBinary : Bool := false
  noBackendName : Bool := false
  printNewLine : Bool := false
  subnormalNormalized : Bool := false
deriving DecidableEq, Repr

/-- A number of type `double` or `float`. -/
structure Datum where
  double : Bool
  bits : Bits
deriving DecidableEq, Repr

/-- The value of a number given to a function with variable arguments: a `float` is converted to
`double`. -/
def Datum.promoted (x : Datum) : Bits := if x.double then x.bits else fconv b32 b64 x.bits

/-- An argument of a format. -/
inductive Arg where
  | num (x : Bits)
  | str (s : CStr)
deriving DecidableEq, Repr

/-- The conversions of the formats: `%g`, `%s`, and `%b` with its flags (`bit_handler`,
`printf_specifier.c:180-221`): a `float` is converted back. -/
def convert (g : Bits → CStr) (alt long : Bool) : Char → Arg → Outcome CStr
  | 'g', .num x => .ok (g x)
  | 's', .str s => .ok s
  | 'b', .num x => .ok (if long then printBin b64 64 alt x else printBin b32 32 alt (fconv b64 b32 x))
  | _, _ => .ub

/-- `vfprintf` for such formats. -/
def printf (g : Bits → CStr) : CStr → List Arg → Outcome CStr
  | '%' :: '#' :: 'l' :: c :: t, a :: as => convert g true true c a >>= fun u => printf g t as >>= fun r => .ok (u ++ r)
  | '%' :: '#' :: c :: t, a :: as => convert g true false c a >>= fun u => printf g t as >>= fun r => .ok (u ++ r)
  | '%' :: 'l' :: c :: t, a :: as => convert g false true c a >>= fun u => printf g t as >>= fun r => .ok (u ++ r)
  | '%' :: c :: t, a :: as => convert g false false c a >>= fun u => printf g t as >>= fun r => .ok (u ++ r)
  | [], _ => .ok []
  | c :: t, as => if c = '%' then .ub else printf g t as >>= fun r => .ok (c :: r)

/-- The loop of `debug_print` with `insert_string`, :77-84 and 103-118. -/
def replaceG (flt : CStr) : CStr → CStr
  | [] => []
  | c :: t => if c = 'g' then flt ++ replaceG flt t else c :: replaceG flt t

/-- `debug_print`, :95-122, and `debug_print_aux`, :86-93: what is written on the standard error. -/
def debugPrint (g : Bits → CStr) (fl : DebugFlags) (flt fmt : CStr) (args : List Arg) (p : Logger.Proc) :
    Outcome Logger.Proc :=
  printf g (if fl.debug then fmt else replaceG flt fmt) args >>= fun t =>
    .ok (if fl.printNewLine then (p.write .stderr t).write .stderr "\n".toList else p.write .stderr t)

/-- `FMT` and `FMT_SUBNORMAL_NORMALIZED`, :65-66, by the type of the number, :140-147. -/
def fltFmt (fl : DebugFlags) (x : Datum) : CStr :=
  match fl.subnormalNormalized, x.double with
  | true, false => "#b".toList
  | true, true => "#lb".toList
  | false, false => "b".toList
  | false, true => "lb".toList

/-- What is printed of an operation (`operation_type`, :56-61, and the numbers). -/
inductive Shown where
  | arith (op : CStr) (a b c : Datum)
  | cmp (op : CStr) (a b : Datum) (c : Bool)
  | cast (op : CStr) (a b : Datum)
  | fma (a b c d : Datum)
deriving DecidableEq, Repr

/-- The calls of `debug_print`, :154-170: number, format, arguments. -/
def parts : Shown → List (Datum × String × List Arg)
  | .arith op a b c =>
    [(a, "%g %s ", [.num a.promoted, .str op]), (b, "%g -> ", [.num b.promoted]), (c, "%g\n", [.num c.promoted])]
  | .cmp op a b c =>
    [(a, "%g [%s] ", [.num a.promoted, .str op]),
      (b, "%g -> %s\n", [.num b.promoted, .str (if c then "true".toList else "false".toList)])]
  | .cast op a b => [(a, "%g %s -> ", [.num a.promoted, .str op]), (b, "%g\n", [.num b.promoted])]
  | .fma a b c d =>
    [(a, "%g * ", [.num a.promoted]), (b, "%g + ", [.num b.promoted]), (c, "%g -> ", [.num c.promoted]),
      (d, "%g\n", [.num d.promoted])]

def printParts (g : Bits → CStr) (fl : DebugFlags) :
    List (Datum × String × List Arg) → Logger.Proc → Outcome Logger.Proc
  | [], p => .ok p
  | (x, fmt, args) :: l, p => debugPrint g fl (fltFmt fl x) fmt.toList args p >>= printParts g fl l

/-- `DEBUG_HEADER` and `DEBUG_BINARY_HEADER`, :124-125 and 139. -/
def debugHeader (fl : DebugFlags) : CStr := if fl.debug then "Decimal ".toList else "Binary ".toList

/-- `DEBUG_PRINT`, :130-172. -/
def showOp (g : Bits → CStr) (fl : DebugFlags) (v : Logger.Vars) (o : Shown) (p : Logger.Proc) : Outcome Logger.Proc :=
  if fl.debug ∨ fl.debugBinary then
    (if fl.noBackendName then .ok p
      else Logger.logTrace v .info (if fl.printNewLine then debugHeader fl ++ "\n".toList else debugHeader fl) p) >>=
        printParts g fl (parts o)
  else .ok p

/-- Operations one after the other. -/
def showAll (g : Bits → CStr) (fl : DebugFlags) (v : Logger.Vars) : List Shown → Logger.Proc → Outcome Logger.Proc
  | [], p => .ok p
  | o :: os, p => showOp g fl v o p >>= showAll g fl v os

/-- The names of the predicates, `SELECT_FLOAT_CMP`, :214-280. -/
def predName : Pred → String
  | .false_ => "FCMP_FALSE"
  | .oeq => "FCMP_OEQ"
  | .ogt => "FCMP_OGT"
  | .oge => "FCMP_OGE"
  | .olt => "FCMP_OLT"
  | .ole => "FCMP_OLE"
  | .one => "FCMP_ONE"
  | .ord => "FCMP_ORD"
  | .uno => "FCMP_UNO"
  | .ueq => "FCMP_UEQ"
  | .ugt => "FCMP_UGT"
  | .uge => "FCMP_UGE"
  | .ult => "FCMP_ULT"
  | .ule => "FCMP_ULE"
  | .une => "FCMP_UNE"
  | .true_ => "FCMP_TRUE"

end Verif.Ieee
