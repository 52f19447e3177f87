import Verif.Float.Format

/-!
# VPREC rounding

Transcription of
* `src/backends/interflop-backend-vprec/common/vprec_tools.c:37-352`
* `src/backends/interflop-backend-vprec/interflop_vprec.c:246-564`

The C file has a binary32 and a binary64 copy of each function with the same
text up to the constants; the model is generic in the format `F` and is used at
`F = b32` and `F = b64`.  `sem` selects what an out-of-range shift does.
-/

namespace Verif.Vprec
open Verif Verif.Fp

/-- vprec_tools.c:39-60 (binary32), 102-123 (binary64), 167-190 (binary128).
Shift operands have the width `w` of the C type (32, 64, 128). -/
def needsRounding (sem : ShiftSem) (F : Fmt) (w : Nat) (x : Bits) (precision : Int) :
    Outcome Bool := do
  let t ← cShl sem w 1 ((F.mw : Int) - precision)
  let trailingBitsMask := (t + (2 ^ w - 1)) % 2 ^ w          -- `t - 1` in uintW_t
  let trailingBits := x.man &&& trailingBitsMask
  let b ← cShr sem w x.man ((F.mw : Int) - precision)
  let bitToRound := b &&& 1
  let halfwayPoint ← cShl sem w 1 ((F.mw : Int) - precision - 1)
  return decide (trailingBits > halfwayPoint) ||
    (decide (trailingBits = halfwayPoint) && decide (bitToRound = 1))

/-- `x < 0` for a finite number. -/
def isNeg (x : Bits) : Bool := x.sign && decide (¬ x.isZero)

/-- vprec_tools.c:71-100 (binary32), 134-165 (binary64).  Bit-field stores are
truncated to the width of the field. -/
def roundNormal (sem : ShiftSem) (F : Fmt) (w : Nat) (x : Bits) (precision : Int) :
    Outcome Bits := do
  let mask ← cShl sem w (2 ^ w - 1) ((F.mw : Int) - precision)
  let expHulp : Int := (x.exp : Int) - precision - 1
  let halfUlp : Bits := ⟨isNeg x, (expHulp % 2 ^ F.ew).toNat, 0⟩
  let halfUlp ← (if expHulp < 1 then do
      let m ← cShl sem w 1 ((F.mw : Int) - 1 + expHulp)
      return { halfUlp with exp := 0, man := m % 2 ^ F.mw }
    else return halfUlp)
  let up ← needsRounding sem F w x precision
  let y := if up then fadd F x halfUlp else x
  return { y with man := y.man &&& mask }

/-- vprec_tools.c:195-215. -/
def underflow128 (x : Bits) (emin precision : Int) : Bits :=
  let hexp := ((b128.bias + (emin - precision) - 1) % 2 ^ b128.ew).toNat
  let half : Bits := ⟨x.sign, hexp, 0⟩
  if x.exp ≥ half.exp then { fadd b128 x half with man := 0 }
  else zeroBits false

/-- vprec_tools.c:217-262.  The argument is a `double`; `float` arguments are
converted by the caller (`handle_binary32_denormal`), the result is converted from
binary128 to binary64 by the `return` statement. -/
def roundDenormal64 (sem : ShiftSem) (x : Bits) (emin precision : Int) : Outcome Bits := do
  let q := fconv b64 b128 x
  let hexp := ((b128.bias + (emin - precision) - 1) % 2 ^ b128.ew).toNat
  let half : Bits := ⟨isNeg x, hexp, 0⟩
  let loss : Int := emin - ((q.exp : Int) - b128.bias)
  if loss ≥ precision then
    return fconv b128 b64 (underflow128 q emin precision)
  else
    let up ← needsRounding sem b128 128 q (precision - loss)
    let q := if up then fadd b128 q half else q
    let mask ← cShl sem 128 (2 ^ 128 - 1) ((b128.mw : Int) - precision + loss)
    let q := { q with man := q.man &&& mask }
    let q := if q.exp ≤ half.exp + 1 then underflow128 q emin precision else q
    return fconv b128 b64 q

/-- vprec_tools.c:264-267, 309-312. -/
def hasUnderflow (F : Fmt) (x : Bits) (emin precision : Int) : Bool :=
  decide ((x.exp : Int) - F.bias < emin - precision)

/-- vprec_tools.c:272-292, 317-337. -/
def roundUnderflow (F : Fmt) (x : Bits) (emin precision : Int) : Bits :=
  let hexp := ((F.bias + (emin - precision) - 1) % 2 ^ F.ew).toNat
  if x.exp ≥ hexp then ⟨x.sign, (hexp + 1) % 2 ^ F.ew, 0⟩
  else zeroBits false

/-- vprec_tools.c:294-307 (binary32: the argument is promoted to `double` and the
`double` result converted back to `float`), 339-352 (binary64: both conversions are
the identity). -/
def handleDenormal (sem : ShiftSem) (F : Fmt) (x : Bits) (emin precision : Int) :
    Outcome Bits :=
  if hasUnderflow F x emin precision then return roundUnderflow F x emin precision
  else if precision ≤ F.mw then do
    let y ← roundDenormal64 sem (if F = b64 then x else fconv F b64 x) emin precision
    return if F = b64 then y else fconv b64 F y
  else return x

/-- The part of `vprec_context_t` the rounding reads
(interflop_vprec.h:129-143). -/
structure Ctx where
  relErr : Bool
  absErr : Bool
  absErrExp : Int
  daz : Bool
  ftz : Bool
deriving DecidableEq, Repr

/-- interflop_vprec.c:253-280, 284-313. -/
def computeAbsErr (F : Fmt) (isDenormal : Bool) (c : Ctx) (expDiff precision : Int) : Int :=
  if isDenormal then
    if c.relErr then
      if |c.absErrExp| < precision then c.absErrExp else precision
    else c.absErrExp
  else if c.relErr then
    if expDiff < precision then expDiff else precision
  else if expDiff < F.mw then expDiff else F.mw

/-- `fpow2i` / `pow2i`: interflop_stdlib.c:174-217, as bit-fields.  The addition
`i + *_EXP_COMP` is done in `int`; its overflow is treated in `Verif.Stdlib`. -/
def pow2i (F : Fmt) (i : Int) : Bits :=
  let e := i + F.bias
  if e ≤ -(F.mw : Int) then zeroBits false
  else if e ≥ F.expInf then infBits F false
  else if e ≤ 0 then ofPat F false (2 ^ ((F.mw : Int) - 1 + e).toNat)
  else ofPat F false (e.toNat * 2 ^ F.mw)

/-- interflop_vprec.c:318-342, 347-371.  `0` is a positive zero. -/
def normalAbsErr (sem : ShiftSem) (F : Fmt) (w : Nat) (a : Bits) (aexp precision : Int)
    (c : Ctx) : Outcome Bits :=
  let expDiff := aexp - c.absErrExp
  if expDiff < -1 then return zeroBits false
  else if expDiff = -1 then return { pow2i F c.absErrExp with sign := a.sign }
  else roundNormal sem F w a (computeAbsErr F false c expDiff precision)

/-- interflop_vprec.c:419-489, 492-564 (`_vprec_round_binary32/64`).
`a * INFINITY` for a finite nonzero `a` is the infinity with the sign of `a`;
`a * 0` is the zero with the sign of `a`. -/
def roundBinary (sem : ShiftSem) (F : Fmt) (w : Nat) (a : Bits) (isInput : Bool) (c : Ctx)
    (range : Nat) (precision : Int) : Outcome Bits := do
  if a.exp = F.expInf then return a
  else
    let emax : Int := 2 ^ (range - 1) - 1
    let emin : Int := 1 - emax
    let aexp : Int := (a.exp : Int) - F.bias
    let overflow ← (if aexp ≥ emax then
        if aexp = emax then do
          let b ← roundNormal sem F w a precision
          return decide ((b.exp : Int) - F.bias > emax)
        else return true
      else return false)
    if overflow then return infBits F a.sign
    else if aexp < emin then
      if (c.daz && isInput) || (c.ftz && !isInput) then return zeroBits a.sign
      else if a.isZero then return a
      else if c.absErr then
        handleDenormal sem F a emin (computeAbsErr F true c 0 precision)
      else handleDenormal sem F a emin precision
    else if c.absErr then normalAbsErr sem F w a aexp precision c
    else roundNormal sem F w a precision

/-- `_vprec_round_binary32`. -/
abbrev round32 (sem : ShiftSem) := roundBinary sem b32 32
/-- `_vprec_round_binary64`. -/
abbrev round64 (sem : ShiftSem) := roundBinary sem b64 64

end Verif.Vprec
