import Verif.Ieee.Debug
import Verif.Pass.IeeeBackend

/-!
# The IEEE backend with its debug output

The functions of `interflop_ieee.c:282-400` end with a call of one of the `debug_print_*` functions of
`interflop_ieee.c:174-212`; the state of the backend is its counters and what the process has written.
-/

namespace Verif.Pass
open Verif Verif.Fp
open Verif.Stdlib (CStr)

/-- The strings given to `debug_print_float` and `debug_print_double`, `interflop_ieee.c:289, 299, 309, 319` and
`336, 346, 356, 366`. -/
def symbolC : Wrapper.Arith → CStr
  | .add => "+".toList
  | .sub => "-".toList
  | .mul => "*".toList
  | .div => "/".toList

/-- A number with its type. -/
def datumOf (p : Wrapper.Prec) (x : Bits) : Ieee.Datum := ⟨p = .double, x⟩

/-- What is given to `DEBUG_PRINT`: the operands and the variable `*c` of the result; the name of a predicate is
empty when `SELECT_FLOAT_CMP` does not know it, `:325-326` and `:372-373`; the cast, `:379`; the fused multiply-add,
`:389` and `:399`. -/
def shownC : Wrapper.OpId → List (BitVec 64) → BitVec 64 → Ieee.Shown
  | .arith o p, x, c =>
    .arith (symbolC o) (datumOf p (operand (fmtOf p) x 0)) (datumOf p (operand (fmtOf p) x 1))
      (datumOf p (operand (fmtOf p) [c] 0))
  | .cmp p, x, c =>
    .cmp (match enumerators[(x.getD 0 0).toNat]? with | none => [] | some q => (Ieee.predName q).toList)
      (datumOf p (operand (fmtOf p) x 1)) (datumOf p (operand (fmtOf p) x 2)) (c.toNat % 2 ^ 32 != 0)
  | .cast, x, c => .cast "(float)".toList (datumOf .double (operand b64 x 0)) (datumOf .float (operand b32 [c] 0))
  | .fma p, x, c =>
    .fma (datumOf p (operand (fmtOf p) x 0)) (datumOf p (operand (fmtOf p) x 1)) (datumOf p (operand (fmtOf p) x 2))
      (datumOf p (operand (fmtOf p) [c] 0))

/-- The backend with its debug output. -/
def debugBackend {σ κ : Type} (count : Ieee.Op → σ → σ) (g : Bits → CStr) (fl : Ieee.DebugFlags) (v : Logger.Vars) :
    Wrapper.Backend (σ × Outcome Logger.Proc) κ := fun o =>
  (ieeeBackend (κ := κ) count o).map fun f x c k s =>
    ((f x c k s.1).1,
      (f x c k s.1).2, s.2 >>= fun p => Ieee.showOp g fl v (shownC o x ((f x c k s.1).1.getD 0)) p)

end Verif.Pass
