import Verif.Mca.IeeeProps
import Verif.Wrapper.Dispatch
import Verif.Float.Class

/-!
# The MCA backend as the wrappers see it

Model of the table of functions `interflop_mcaquad_init` returns
(`src/backends/interflop-backend-mcaquad/interflop_mca.c:942-966`) on bit patterns; the operations
themselves are those of `Verif.Mca.Common`.

Simplification: the noise is a parameter, as in `Verif.Mca.Common`; an operation that has no
defined result leaves the result variable as it was.
-/

namespace Verif.Pass
open Verif Verif.Fp Verif.Mca

/-- The type of the operation in the backend. -/
def mcaTy : Wrapper.Prec → Mca.Ty
  | .float => .f32
  | .double => .f64

/-- The operation in the wide type. -/
def mcaFun : Wrapper.Arith → Fmt → List Bits → Bits
  | .add => wideAdd
  | .sub => wideSub
  | .mul => wideMul
  | .div => wideDiv

/-- Operand number `k` as a number of the format. -/
def operand (F : Fmt) (x : List (BitVec 64)) (k : Nat) : Bits := ofWord F (x.getD k 0).toNat

/-- The bit pattern of a number, in 64 bits. -/
def image (F : Fmt) (x : Bits) : BitVec 64 := BitVec.ofNat 64 (word F x)

/-- What an operation stores in the result variable. -/
def store {σ : Type} (F : Fmt) (c : Option (BitVec 64)) (s : σ) : Outcome (Bits × σ) → Option (BitVec 64) × σ
  | .ok (r, s) => (some (image F r), s)
  | _ => (c, s)

/-- The functions of the backend (`interflop_mca.c:593-650`) and their table (`interflop_mca.c:947-966`):
comparisons are not implemented. -/
def mcaBackend {σ κ : Type} (noise : Fmt → Ctx → Int → σ → Bits → Outcome (Bits × σ)) (g : Gen σ) (ctx : Ctx) :
    Wrapper.Backend σ κ
  | .arith o p => some fun x c _ s =>
    store (mcaTy p).fmt c s (opN (mcaTy p) (inexact noise g (mcaTy p).wide ctx (ctx.prec (mcaTy p)))
      (mcaFun o (mcaTy p).wide) ctx s [operand (mcaTy p).fmt x 0, operand (mcaTy p).fmt x 1])
  | .cmp _ => none
  | .fma p => some fun x c _ s =>
    store (mcaTy p).fmt c s (opN (mcaTy p) (inexact noise g (mcaTy p).wide ctx (ctx.prec (mcaTy p)))
      (wideFma (mcaTy p).wide) ctx s
      [operand (mcaTy p).fmt x 0, operand (mcaTy p).fmt x 1, operand (mcaTy p).fmt x 2])
  | .cast => some fun x c _ s =>
    store b32 c s (castOp (inexact noise g b128 ctx (ctx.prec .f64)) ctx s (operand b64 x 0))

/-- The integer backend: the same operations (`interflop_mca_int.c:523-576`) and the same table
(`interflop_mca_int.c:788-812`), with the integer noise. -/
def mcaIntBackend {σ κ : Type} (sem : ShiftSem) (g : Gen σ) (ctx : Ctx) : Wrapper.Backend σ κ :=
  mcaBackend (intPerturb sem g) g ctx

end Verif.Pass
