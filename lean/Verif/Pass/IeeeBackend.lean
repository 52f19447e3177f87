import Verif.Float.Class
import Verif.Float.Double
import Verif.Ieee.Cmp
import Verif.Ieee.Count
import Verif.Pass.McaBackend
import Verif.Wrapper.Dispatch

/-!
# The IEEE backend as the wrappers see it

Model of the functions of `interflop_ieee.c:282-400` on bit patterns and of their table
(`interflop_ieee.c:568-586`).

Simplifications: what `debug_print_*` writes is left out; the counters are a part of the state of the
backends, which `count` updates.  `a + b` and the other operations of the machine are those of
IEEE-754.
-/

namespace Verif.Pass
open Verif Verif.Fp

/-- `enum FCMP_PREDICATE` (`interflop.h:28-45`): the enumerators in order, the first being 0. -/
def enumerators : List Ieee.Pred :=
  [.false_, .oeq, .ogt, .oge, .olt, .ole, .one, .ord, .uno, .ueq, .ugt, .uge, .ult, .ule, .une, .true_]

/-- The format of a precision. -/
def fmtOf : Wrapper.Prec → Fmt
  | .float => b32
  | .double => b64

/-- The result of an operator of C. -/
def operatorC (F : Fmt) (a b : Bits) : Wrapper.Arith → Bits
  | .add => fadd F a b
  | .sub => fadd F a (fneg b)
  | .mul => fmul F a b
  | .div => fdiv F a b

/-- The counter of an operation. -/
def counterOf : Wrapper.Arith → Ieee.Kind
  | .add => .add
  | .sub => .sub
  | .mul => .mul
  | .div => .div

/-- The functions of the backend: `add_float` to `div_double` (`interflop_ieee.c:282-320, 329-367`),
`cmp_float` and `cmp_double` (`:322-327, 369-374`), which leave the result as it was when the predicate is none of
the enumerators, `cast_double_to_float` (`:376-380`), `fma_float` and `fma_double` (`:382-400`). -/
def ieeeBackend {σ κ : Type} (count : Ieee.Op → σ → σ) : Wrapper.Backend σ κ
  | .arith o p => some fun x _ _ s =>
    (some (image (fmtOf p) (operatorC (fmtOf p) (operand (fmtOf p) x 0) (operand (fmtOf p) x 1) o)),
      count ⟨counterOf o, p = .double⟩ s)
  | .cmp p => some fun x c _ s =>
    match enumerators[(x.getD 0 0).toNat]? with
    | none => (c, s)
    | some q => (some (if Ieee.cmp (fmtOf p) q (operand (fmtOf p) x 1) (operand (fmtOf p) x 2) then 1 else 0), s)
  | .cast => some fun x _ _ s => (some (image b32 (fconv b64 b32 (operand b64 x 0))), s)
  | .fma p => some fun x _ _ s =>
    (some (image (fmtOf p) (ffma (fmtOf p) (operand (fmtOf p) x 0) (operand (fmtOf p) x 1) (operand (fmtOf p) x 2))),
      count ⟨.fma, p = .double⟩ s)

end Verif.Pass
