import Verif.Mca.Common

/-!
# The cancellation backend

/repo/src/backends/interflop-backend-cancellation/interflop_cancellation.c
-/

namespace Verif.Cancel
open Verif Verif.Fp

/-- `cancellation_context_t`; the seed belongs to the generator, the warning only
prints. -/
structure Ctx where
  tolerance : Int
  warning : Bool
deriving DecidableEq, Repr

/-- interflop_cancellation.h: defaults of the context. -/
def init : Ctx := ⟨1, false⟩

/-- `--tolerance` (parse_opt, 219-228): negative values exit. -/
def setTolerance (v : Int) (c : Ctx) : Outcome Ctx :=
  if v < 0 then .exit else .ok { c with tolerance := v }

/-- Number of cancelled bits, by exponent fields (cancell, 125-128). -/
def lost (F : Fmt) (x y z : Bits) : Int := max (getExp F x) (getExp F y) - getExp F z

/-- `*Z += noise` (139): the noise is a `double`, so a `float` is widened, added to in
`double` and converted back. -/
def addNoise (F : Fmt) (z n : Bits) : Bits :=
  if F = b64 then fadd b64 z n else fconv b64 F (fadd b64 (fconv F b64 z) n)

/-- `cancell` (122-141), with `_noise_binary64` (112-118), which is textually the one of
the quad MCA backend. -/
def cancell {σ : Type} (g : Mca.Gen σ) (F : Fmt) (c : Ctx) (s : σ) (x y z : Bits) : Bits × σ :=
  let e_z := getExp F z
  let cancellation := lost F x y z
  if c.tolerance ≤ cancellation then
    let e_n := e_z - (cancellation - 1)
    (addNoise F z (Mca.quadNoise b64 e_n (g.next s).1), (g.next s).2)
  else (z, s)

/-- The operations of one type. -/
inductive Op
  | add (a b : Bits) | sub (a b : Bits) | mul (a b : Bits) | div (a b : Bits) | fma (a b c : Bits)

/-- Hardware operations that the backend only forwards to. -/
structure HW where
  mul : Bits → Bits → Bits
  div : Bits → Bits → Bits
  fma : Bits → Bits → Bits → Bits

/-- The exact operation. -/
def ieee (F : Fmt) (hw : HW) : Op → Bits
  | .add a b => fadd F a b
  | .sub a b => fadd F a (fneg b)
  | .mul a b => hw.mul a b
  | .div a b => hw.div a b
  | .fma a b c => hw.fma a b c

/-- The entry points (146-196). -/
def exec {σ : Type} (g : Mca.Gen σ) (F : Fmt) (hw : HW) (c : Ctx) (s : σ) : Op → Bits × σ
  | .add a b => cancell g F c s a b (fadd F a b)
  | .sub a b => cancell g F c s a b (fadd F a (fneg b))
  | .mul a b => (hw.mul a b, s)
  | .div a b => (hw.div a b, s)
  | .fma a b c => (hw.fma a b c, s)

/-- `cast_double_to_float` (198-201). -/
def cast (a : Bits) : Bits := fconv b64 b32 a

end Verif.Cancel
