import Verif.Float.Format

/-!
# Comparisons

`enum FCMP_PREDICATE` (interflop-stdlib/interflop.h) and the comparison of the IEEE backend,
/repo/src/backends/interflop-backend-ieee/interflop_ieee.c:211-280, 322-327, 369-374.
It is the only backend that implements comparisons.
-/

namespace Verif.Ieee
open Verif Verif.Fp

/-- `enum FCMP_PREDICATE` (interflop.h:28-45), in the order of LLVM's `CmpInst::Predicate`. -/
inductive Pred
  | false_ | oeq | ogt | oge | olt | ole | one | ord | uno | ueq | ugt | uge | ult | ule | une | true_
deriving DecidableEq, Repr

/-- The integer whose order is the order of the numbers that are not NaN. -/
def key (F : Fmt) (x : Bits) : ℤ := if x.sign then -(x.pat F : ℤ) else x.pat F

/-- The comparison of the hardware; `none` when unordered. -/
def fcompare (F : Fmt) (a b : Bits) : Option Ordering :=
  if a.isNaN F ∨ b.isNaN F then none else some (compare (key F a) (key F b))

/-- C's `==` and the macros of math.h. -/
def eqC (F : Fmt) (a b : Bits) : Bool := fcompare F a b = some .eq
def isgreater (F : Fmt) (a b : Bits) : Bool := fcompare F a b = some .gt
def isgreaterequal (F : Fmt) (a b : Bits) : Bool := fcompare F a b = some .gt ∨ fcompare F a b = some .eq
def isless (F : Fmt) (a b : Bits) : Bool := fcompare F a b = some .lt
def islessequal (F : Fmt) (a b : Bits) : Bool := fcompare F a b = some .lt ∨ fcompare F a b = some .eq
def islessgreater (F : Fmt) (a b : Bits) : Bool := fcompare F a b = some .lt ∨ fcompare F a b = some .gt
def isunordered (F : Fmt) (a b : Bits) : Bool := fcompare F a b = none

/-- `SELECT_FLOAT_CMP`, interflop_ieee.c:213-280. -/
def cmp (F : Fmt) (p : Pred) (a b : Bits) : Bool :=
  match p with
  | .false_ => false
  | .oeq => eqC F a b
  | .ogt => isgreater F a b
  | .oge => isgreaterequal F a b
  | .olt => isless F a b
  | .ole => islessequal F a b
  | .one => islessgreater F a b
  | .ord => !isunordered F a b
  | .ueq => isunordered F a b
  | .ugt => isunordered F a b
  | .uge => isunordered F a b
  | .ult => isunordered F a b
  | .ule => isunordered F a b
  | .une => isunordered F a b
  | .uno => isunordered F a b
  | .true_ => true

end Verif.Ieee
