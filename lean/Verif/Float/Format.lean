import Mathlib.Algebra.Order.Field.Rat
import Mathlib.Tactic.Ring
import Verif.Base.Outcome

/-!
# IEEE-754 interchange formats

The C code accesses floating-point numbers through unions with bit-fields
`sign`, `exponent`, `mantissa` (`src/interflop-stdlib/common/float_struct.h:17-183`).
`Bits` is that view; the three formats of the code are `b32`, `b64`, `b128`
(`src/interflop-stdlib/common/float_const.h`).
-/

namespace Verif.Fp

/-- A binary interchange format: `mw` explicit mantissa bits (`*_PMAN_SIZE`) and
`ew` exponent bits (`*_EXP_SIZE`). -/
structure Fmt where
  mw : Nat
  ew : Nat
deriving DecidableEq, Repr

/-- `float`  (`float_const.h`, FLOAT_PMAN_SIZE, FLOAT_EXP_SIZE). -/
def b32 : Fmt := ⟨23, 8⟩
/-- `double` (`float_const.h`, DOUBLE_PMAN_SIZE, DOUBLE_EXP_SIZE). -/
def b64 : Fmt := ⟨52, 11⟩
/-- `_Float128` (`float_const.h`, QUAD_PMAN_SIZE, QUAD_EXP_SIZE). -/
def b128 : Fmt := ⟨112, 15⟩

/-- Exponent bias (`*_EXP_COMP`). -/
def Fmt.bias (F : Fmt) : Nat := 2 ^ (F.ew - 1) - 1
/-- Exponent field of infinities and NaNs (`*_EXP_INF`). -/
def Fmt.expInf (F : Fmt) : Nat := 2 ^ F.ew - 1
/-- Total width of the format. -/
def Fmt.width (F : Fmt) : Nat := 1 + F.ew + F.mw

/-- The bit-field view of a floating-point object. -/
structure Bits where
  sign : Bool
  exp : Nat
  man : Nat
deriving DecidableEq, Repr

/-- The fields fit in their widths. -/
def Bits.WF (F : Fmt) (x : Bits) : Prop := x.exp < 2 ^ F.ew ∧ x.man < 2 ^ F.mw

instance (F : Fmt) (x : Bits) : Decidable (x.WF F) := by unfold Bits.WF; infer_instance

/-- `isfinite`. -/
def Bits.Fin (F : Fmt) (x : Bits) : Prop := x.exp ≠ F.expInf

instance (F : Fmt) (x : Bits) : Decidable (x.Fin F) := by unfold Bits.Fin; infer_instance

def Bits.isZero (x : Bits) : Prop := x.exp = 0 ∧ x.man = 0

instance (x : Bits) : Decidable x.isZero := by unfold Bits.isZero; infer_instance

def Bits.isNaN (F : Fmt) (x : Bits) : Prop := x.exp = F.expInf ∧ x.man ≠ 0
def Bits.isInf (F : Fmt) (x : Bits) : Prop := x.exp = F.expInf ∧ x.man = 0

instance (F : Fmt) (x : Bits) : Decidable (x.isNaN F) := by unfold Bits.isNaN; infer_instance
instance (F : Fmt) (x : Bits) : Decidable (x.isInf F) := by unfold Bits.isInf; infer_instance

/-- Sign as a factor. -/
def sgn (s : Bool) : ℚ := if s then -1 else 1

/-- Integer significand: `man` for subnormals, `2^mw + man` for normals. -/
def Bits.sig (F : Fmt) (x : Bits) : Nat := if x.exp = 0 then x.man else 2 ^ F.mw + x.man

/-- Exponent of the last place: subnormals share the exponent of field value 1. -/
def Bits.lsb (F : Fmt) (x : Bits) : ℤ := (max x.exp 1 : ℕ) - (F.bias : ℤ) - F.mw

/-- The rational value of a finite number. -/
def Bits.val (F : Fmt) (x : Bits) : ℚ := sgn x.sign * x.sig F * 2 ^ (x.lsb F)

/-- Magnitude in units of the smallest subnormal of the format. -/
def Bits.mag (F : Fmt) (x : Bits) : Nat := x.sig F * 2 ^ (x.exp - 1)

/-- Exponent of the smallest subnormal of the format. -/
def Fmt.uexp (F : Fmt) : ℤ := 1 - (F.bias : ℤ) - F.mw

/-- Magnitude bit pattern (all bits but the sign), as an integer. -/
def Bits.pat (F : Fmt) (x : Bits) : Nat := x.exp * 2 ^ F.mw + x.man

/-- Bits from sign and magnitude pattern. -/
def ofPat (F : Fmt) (s : Bool) (n : Nat) : Bits := ⟨s, n / 2 ^ F.mw, n % 2 ^ F.mw⟩

def infBits (F : Fmt) (s : Bool) : Bits := ⟨s, F.expInf, 0⟩
def zeroBits (s : Bool) : Bits := ⟨s, 0, 0⟩
/-- The default quiet NaN. -/
def nanBits (F : Fmt) : Bits := ⟨false, F.expInf, 2 ^ (F.mw - 1)⟩

/-! ## Hardware rounding and addition -/

/-- `n / 2^j` rounded to an integer, to nearest, ties to even. -/
def rneShift (n j : Nat) : Nat :=
  if 2 ^ j < 2 * (n % 2 ^ j) ∨ (2 * (n % 2 ^ j) = 2 ^ j ∧ n / 2 ^ j % 2 = 1)
  then n / 2 ^ j + 1 else n / 2 ^ j

/-- IEEE-754 round-to-nearest-even of the magnitude `n * 2^(-j)` (in units of the
smallest subnormal of `F`) to the format `F`; overflow gives infinity.  `k` is the
exponent of the last place kept, above the smallest subnormal. -/
def encode (F : Fmt) (s : Bool) (n j : Nat) : Bits :=
  let k := Nat.log2 n - (j + F.mw)
  let p := k * 2 ^ F.mw + rneShift n (j + k)
  if p < F.expInf * 2 ^ F.mw then ofPat F s p else infBits F s

/-- Signed magnitude. -/
def Bits.imag (F : Fmt) (x : Bits) : ℤ := if x.sign then -(x.mag F : ℤ) else x.mag F

/-- Hardware addition in round-to-nearest-even (IEEE-754 §5.4.1, §6.3). -/
def fadd (F : Fmt) (a b : Bits) : Bits :=
  if a.isNaN F ∨ b.isNaN F then nanBits F
  else if a.isInf F then
    (if b.isInf F ∧ b.sign ≠ a.sign then nanBits F else a)
  else if b.isInf F then b
  else
    let s := a.imag F + b.imag F
    if s = 0 then zeroBits (a.sign && b.sign)
    else encode F (decide (s < 0)) s.natAbs 0

/-- Negation flips the sign bit. -/
def fneg (x : Bits) : Bits := { x with sign := !x.sign }

/-- Conversion between formats, round-to-nearest-even. -/
def fconv (F G : Fmt) (x : Bits) : Bits :=
  if x.isNaN F then nanBits G
  else if x.isInf F then infBits G x.sign
  else
    -- value = mag * 2^uexp(F) = (mag * 2^up) * 2^-down in units of 2^uexp(G)
    let d := F.uexp - G.uexp
    encode G x.sign (x.mag F * 2 ^ d.toNat) (-d).toNat

end Verif.Fp
