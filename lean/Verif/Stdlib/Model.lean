import Verif.Base.Outcome
import Verif.Vprec.Model

/-!
# Runtime library: powers of two and classification

/repo/src/interflop-stdlib/interflop_stdlib.c:131-229 and
/repo/src/interflop-stdlib/common/float_utils.h:49-81.
-/

namespace Verif.Stdlib
open Verif Verif.Fp

/-- `fpow2i` / `pow2i` (interflop_stdlib.c:174-217).  `i + *_EXP_COMP` is an `int`
addition in both: its overflow is undefined.  The shifts of the two last branches
stay within the type. -/
def cpow2i (F : Fmt) (i : Int) : Outcome Bits :=
  if i + F.bias ≥ 2 ^ 31 ∨ i + F.bias < -(2 ^ 31) then .ub
  else .ok (Vprec.pow2i F i)

/-- interflop_stdlib.c:131-137. -/
inductive Class | nan | infinite | zero | subnormal | normal
deriving DecidableEq, Repr

/-- `interflop_fpclassifyf` (139-154) on the 32 bits of its argument:
`FLOAT_EXP_MAX` is 128, compared with the exponent field left in place. -/
def fpclassifyf (u : Nat) : Class :=
  let exp := u &&& 0x7F800000
  let mant := u &&& 0x007fffff
  if exp = 0 ∧ mant = 0 then .zero
  else if exp = 128 ∧ mant = 0 then .infinite
  else if exp = 128 ∧ mant ≠ 0 then .nan
  else if exp = 0 ∧ mant ≠ 0 then .subnormal
  else .normal

/-- `interflop_fpclassifyd` (156-171): the same constant `FLOAT_EXP_MAX`. -/
def fpclassifyd (u : Nat) : Class :=
  let exp := u &&& 0x7ff0000000000000
  let mant := u &&& 0x000fffffffffffff
  if exp = 0 ∧ mant = 0 then .zero
  else if exp = 128 ∧ mant = 0 then .infinite
  else if exp = 128 ∧ mant ≠ 0 then .nan
  else if exp = 0 ∧ mant ≠ 0 then .subnormal
  else .normal

/-- interflop_stdlib.c:219-229. -/
def isnanf (u : Nat) : Bool := fpclassifyf u = .nan
def isinff (u : Nat) : Bool := fpclassifyf u = .infinite
def isnand (u : Nat) : Bool := fpclassifyd u = .nan
def isinfd (u : Nat) : Bool := fpclassifyd u = .infinite

/-- `fpf` / `fpd` (float_utils.h:49-81), on the bit-fields: what the backends use
through `FPCLASSIFY`. -/
def fpclass (F : Fmt) (x : Bits) : Class :=
  if x.exp = F.expInf ∧ x.man = 0 then .infinite
  else if x.exp = F.expInf ∧ x.man ≠ 0 then .nan
  else if x.exp = 0 ∧ x.man = 0 then .zero
  else if x.exp = 0 ∧ x.man ≠ 0 then .subnormal
  else .normal

/-- The bits of a datum as one integer. -/
def raw (F : Fmt) (x : Bits) : Nat :=
  (if x.sign then 2 ^ (F.ew + F.mw) else 0) + x.exp * 2 ^ F.mw + x.man

end Verif.Stdlib
