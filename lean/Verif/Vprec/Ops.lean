import Verif.Vprec.Config

/-!
# VPREC operations

/repo/src/backends/interflop-backend-vprec/interflop_vprec.c:387-416, 566-769.
The hardware operations (`a + b`, ..., `interflop_fma_binaryN`) are arbitrary
functions; only the conversion `double -> float` of the cast is the concrete one.
Debug messages are left out.
-/

namespace Verif.Vprec.Ops
open Verif Verif.Fp Verif.Vprec.Config

/-- Operators of `vprec_operation`, interflop_vprec.h:89-95. -/
inductive Op2 | add | sub | mul | div
deriving DecidableEq, Repr

/-- The hardware: what `perform_binary_op` (387-405) and `perform_ternary_op`
(407-416) evaluate, for one format. -/
structure HW where
  op2 : Op2 → Bits → Bits → Bits
  fma : Bits → Bits → Bits → Bits

/-- `_vprec_binary32_binary_op` (566-593) and `_vprec_binary64_binary_op` (595-620):
same text, with the range and precision of the type. -/
def binaryOp (sem : ShiftSem) (F : Fmt) (w : Nat) (hw : HW) (c : Cfg) (range prec : Int)
    (op : Op2) (a b : Bits) : Outcome Bits := do
  let (a, b) ← (if c.mode = .full ∨ c.mode = .ib then do
      let a ← roundBinary sem F w a true c.ctx range.toNat prec
      let b ← roundBinary sem F w b true c.ctx range.toNat prec
      return (a, b)
    else return (a, b))
  let res := hw.op2 op a b
  if c.mode = .full ∨ c.mode = .ob then
    roundBinary sem F w res false c.ctx range.toNat prec
  else return res

/-- `_vprec_binary32_ternary_op` (622-645), `_vprec_binary64_ternary_op` (647-669). -/
def ternaryOp (sem : ShiftSem) (F : Fmt) (w : Nat) (hw : HW) (c : Cfg) (range prec : Int)
    (x y z : Bits) : Outcome Bits := do
  let (x, y, z) ← (if c.mode = .ib ∨ c.mode = .full then do
      let x ← roundBinary sem F w x true c.ctx range.toNat prec
      let y ← roundBinary sem F w y true c.ctx range.toNat prec
      let z ← roundBinary sem F w z true c.ctx range.toNat prec
      return (x, y, z)
    else return (x, y, z))
  let res := hw.fma x y z
  if c.mode = .ob ∨ c.mode = .full then
    roundBinary sem F w res false c.ctx range.toNat prec
  else return res

/-- A call of the backend: the hooks of interflop_vprec.c:696-769. -/
inductive Call
  | bin32 (op : Op2) (a b : Bits)
  | bin64 (op : Op2) (a b : Bits)
  | fma32 (a b c : Bits)
  | fma64 (a b c : Bits)
  | cast (a : Bits)

/-- `cast_double_to_float`, interflop_vprec.c:729-759. -/
def castOp (sem : ShiftSem) (c : Cfg) (a : Bits) : Outcome Bits :=
  match c.mode with
  | .ieee => .ok (fconv b64 b32 a)
  | .ob => do
    let y ← round64 sem a false c.ctx c.range32.toNat c.prec32
    return fconv b64 b32 y
  | .full => do
    let y ← round64 sem a false c.ctx c.range32.toNat c.prec32
    return fconv b64 b32 y
  | .ib => do
    let y ← round64 sem a true c.ctx (min c.range64 8).toNat (min c.prec64 23)
    return fconv b64 b32 y

def exec (sem : ShiftSem) (hw32 hw64 : HW) (c : Cfg) : Call → Outcome Bits
  | .bin32 op x y => binaryOp sem b32 32 hw32 c c.range32 c.prec32 op x y
  | .bin64 op x y => binaryOp sem b64 64 hw64 c c.range64 c.prec64 op x y
  | .fma32 x y z => ternaryOp sem b32 32 hw32 c c.range32 c.prec32 x y z
  | .fma64 x y z => ternaryOp sem b64 64 hw64 c c.range64 c.prec64 x y z
  | .cast x => castOp sem c x

end Verif.Vprec.Ops
