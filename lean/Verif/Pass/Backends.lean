import Verif.Bitmask.Model
import Verif.Cancel.Model
import Verif.Float.Double
import Verif.Pass.IeeeBackend
import Verif.Vprec.Ops

/-!
# The VPREC, bitmask and cancellation backends as the wrappers see them

Models of the functions of the three backends on bit patterns and of the tables their `init`
functions return; the operations themselves are those of `Verif.Vprec.Ops`, `Verif.Bitmask.Model` and
`Verif.Cancel.Model`, with IEEE-754 arithmetic for the operations of the machine.  In the three tables
comparisons are not implemented.

Simplification: an operation that has no defined result leaves the result variable as it was.
-/

namespace Verif.Pass
open Verif Verif.Fp

/-! ## VPREC -/

/-- The operations of the machine (`interflop_vprec.c:387-416`). -/
def vprecHW (F : Fmt) : Vprec.Ops.HW where
  op2 := fun
    | .add, a, b => operatorC F a b .add
    | .sub, a, b => operatorC F a b .sub
    | .mul, a, b => operatorC F a b .mul
    | .div, a, b => operatorC F a b .div
  fma := ffma F

/-- The operator `add_float` to `div_double` give to `_vprec_binary32_binary_op` and
`_vprec_binary64_binary_op` (`interflop_vprec.c:692-726`). -/
def vprecOp : Wrapper.Arith → Vprec.Ops.Op2
  | .add => .add
  | .sub => .sub
  | .mul => .mul
  | .div => .div

/-- The call of the backend for an entry of its table (`interflop_vprec.c:692-769`). -/
def vprecCall (x : List (BitVec 64)) : Wrapper.OpId → Option Vprec.Ops.Call
  | .arith o .float => some (.bin32 (vprecOp o) (operand b32 x 0) (operand b32 x 1))
  | .arith o .double => some (.bin64 (vprecOp o) (operand b64 x 0) (operand b64 x 1))
  | .cmp _ => none
  | .cast => some (.cast (operand b64 x 0))
  | .fma .float => some (.fma32 (operand b32 x 0) (operand b32 x 1) (operand b32 x 2))
  | .fma .double => some (.fma64 (operand b64 x 0) (operand b64 x 1) (operand b64 x 2))

/-- The format of the result of an entry. -/
def resultFmt : Wrapper.OpId → Fmt
  | .arith _ p => fmtOf p
  | .cmp _ => b32
  | .cast => b32
  | .fma p => fmtOf p

/-- The functions of the VPREC backend and their table (`interflop_vprec.c:1148-1162`).  The state is
not used: the backend draws nothing. -/
def vprecBackend {σ κ : Type} (sem : ShiftSem) (cfg : Vprec.Config.Cfg) : Wrapper.Backend σ κ
  | .cmp _ => none
  | o => some fun x c _ s =>
    match vprecCall x o with
    | some k =>
      store (resultFmt o) c s (Vprec.Ops.exec sem (vprecHW b32) (vprecHW b64) cfg k >>= fun r => .ok (r, s))
    | none => (c, s)

/-! ## Bitmask -/

def bitmaskTy : Wrapper.Prec → Bitmask.Ty
  | .float => .f32
  | .double => .f64

/-- A binary operation of the machine, on a list of operands (`PERFORM_BIN_OP`,
`interflop_bitmask.c:253-271`). -/
def binaryC (F : Fmt) (o : Wrapper.Arith) (l : List Bits) : Bits :=
  operatorC F (l.getD 0 (zeroBits false)) (l.getD 1 (zeroBits false)) o

/-- The multiply-add of the machine, on a list of operands (`PERFORM_TERNARY_OP`,
`interflop_bitmask.c:273-282`). -/
def ternaryC (F : Fmt) (l : List Bits) : Bits :=
  ffma F (l.getD 0 (zeroBits false)) (l.getD 1 (zeroBits false)) (l.getD 2 (zeroBits false))

/-- The functions of the bitmask backend (`interflop_bitmask.c:465-518`) and their table
(`interflop_bitmask.c:734-748`). -/
def bitmaskBackend {σ κ : Type} (g : Bitmask.Gen σ) (cfg : Bitmask.Ctx) : Wrapper.Backend σ κ
  | .arith o p => some fun x c _ s =>
    store (fmtOf p) c s
      (Bitmask.opN g (bitmaskTy p) (binaryC (fmtOf p) o) cfg s [operand (fmtOf p) x 0, operand (fmtOf p) x 1])
  | .cmp _ => none
  | .cast => some fun x c _ s => store b32 c s (Bitmask.castOp g cfg s (operand b64 x 0))
  | .fma p => some fun x c _ s =>
    store (fmtOf p) c s (Bitmask.opN g (bitmaskTy p) (ternaryC (fmtOf p)) cfg s
      [operand (fmtOf p) x 0, operand (fmtOf p) x 1, operand (fmtOf p) x 2])

/-! ## Cancellation -/

/-- The operations of the machine the backend forwards to (`interflop_cancellation.c:157-196`). -/
def cancelHW (F : Fmt) : Cancel.HW where
  mul a b := operatorC F a b .mul
  div a b := operatorC F a b .div
  fma := ffma F

/-- The operation of an entry of the table (`interflop_cancellation.c:146-186`). -/
def cancelOp (a b : Bits) : Wrapper.Arith → Cancel.Op
  | .add => .add a b
  | .sub => .sub a b
  | .mul => .mul a b
  | .div => .div a b

/-- The functions of the cancellation backend (`interflop_cancellation.c:146-201`) and their table
(`interflop_cancellation.c:332-346`). -/
def cancelBackend {σ κ : Type} (g : Mca.Gen σ) (cfg : Cancel.Ctx) : Wrapper.Backend σ κ
  | .arith o p => some fun x c _ s =>
    store (fmtOf p) c s (.ok (Cancel.exec g (fmtOf p) (cancelHW (fmtOf p)) cfg s
      (cancelOp (operand (fmtOf p) x 0) (operand (fmtOf p) x 1) o)))
  | .cmp _ => none
  | .cast => some fun x c _ s => store b32 c s (.ok (Cancel.cast (operand b64 x 0), s))
  | .fma p => some fun x c _ s =>
    store (fmtOf p) c s (.ok (Cancel.exec g (fmtOf p) (cancelHW (fmtOf p)) cfg s
      (.fma (operand (fmtOf p) x 0) (operand (fmtOf p) x 1) (operand (fmtOf p) x 2))))

end Verif.Pass
