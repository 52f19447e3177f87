import Verif.Float.Format
import Mathlib.Algebra.Order.Floor.Ring
import Mathlib.Algebra.Group.Even
import Mathlib.Algebra.Group.Int.Even

/-!
# What "rounding to a format" means

Independent of the code: formats are sets of rational numbers, rounding is defined
by distance.
-/

namespace Verif.Vprec.Spec
open Verif.Fp

/-- Numbers with at most `p+1` significant bits and quantum at least `2^(emin-p)`:
the format with `p` explicit mantissa bits, gradual underflow below `2^emin`, and no
upper limit on the exponent. -/
def InFmt (p : ℕ) (emin : ℤ) (q : ℚ) : Prop :=
  ∃ m e : ℤ, |m| < 2 ^ (p + 1) ∧ emin - p ≤ e ∧ q = m * 2 ^ e

/-- `q` has an even last bit in the format: it has a representation that is
canonical (normalised, or with the smallest quantum) and whose integer significand
is even. -/
def EvenIn (p : ℕ) (emin : ℤ) (q : ℚ) : Prop :=
  ∃ m e : ℤ, |m| < 2 ^ (p + 1) ∧ emin - p ≤ e ∧ q = m * 2 ^ e ∧ Even m ∧
    (e = emin - p ∨ 2 ^ p ≤ |m|)

/-- `q` is an element of the format closest to `x`. -/
def Nearest (p : ℕ) (emin : ℤ) (x q : ℚ) : Prop :=
  InFmt p emin q ∧ ∀ z, InFmt p emin z → |x - q| ≤ |x - z|

/-- Round to nearest, ties to even. -/
def RNE (p : ℕ) (emin : ℤ) (x q : ℚ) : Prop :=
  Nearest p emin x q ∧
    ((∃ z, InFmt p emin z ∧ z ≠ q ∧ |x - z| = |x - q|) → EvenIn p emin q)

/-- Largest exponent of the format with `r` exponent bits. -/
def emax (r : ℕ) : ℤ := 2 ^ (r - 1) - 1
/-- Exponent of the smallest normal number of the format with `r` exponent bits. -/
def emin (r : ℕ) : ℤ := 1 - emax r

/-- Order of non-NaN floating-point data, infinities included. -/
def FLe (F : Fmt) (a b : Bits) : Prop :=
  (a.isInf F ∧ a.sign = true) ∨ (b.isInf F ∧ b.sign = false) ∨
  (a.Fin F ∧ b.Fin F ∧ a.val F ≤ b.val F)

end Verif.Vprec.Spec
