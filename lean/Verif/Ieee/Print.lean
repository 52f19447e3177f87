import Verif.Vfi.File

/-!
# Binary printing

`%b` of the IEEE backend: /repo/src/backends/interflop-backend-ieee/common/printf_specifier.c:44-178,
with `W = 32` for `float` and `W = 64` for `double`.
-/

namespace Verif.Ieee
open Verif Verif.Fp

/-- `hex_to_bit`, :44-46. -/
def nibble (n : Nat) : List Char :=
  [if n / 8 % 2 = 1 then '1' else '0', if n / 4 % 2 = 1 then '1' else '0',
   if n / 2 % 2 = 1 then '1' else '0', if n % 2 = 1 then '1' else '0']

/-- `FFS`: one plus the index of the least significant one bit of a nonzero number. -/
def ffs : Nat → Nat → Nat
  | 0, _ => 0
  | fuel + 1, x => if x % 2 = 1 then 1 else ffs fuel (x / 2) + 1

/-- The loop of `UINTN_TO_BIT`, :60-66: groups of four bits from position `i` while
`i < first_trailing_0`; `fuel` bounds the number of groups by the size of the type. -/
def groups (W X last : Nat) : Nat → Nat → List Char
  | 0, _ => []
  | fuel + 1, i => if i < last then nibble (X / 2 ^ (W - (i + 4)) % 16) ++ groups W X last fuel (i + 4) else []

/-- The loop removing trailing zeros, :67-70. -/
def rtrim (l : List Char) : List Char := (l.reverse.dropWhile (· != '1')).reverse

/-- `UINTN_TO_BIT`, :50-72. -/
def uintToBit (W X : Nat) : List Char :=
  if X = 0 then ['0'] else rtrim (groups W X (W - ffs W X + 1) (W / 4) 0)

/-- `CLZ` of a nonzero number of `W` bits. -/
def clz (W X : Nat) : Nat := W - 1 - Nat.log2 X

/-- `"%c%c.%s x 2^%d"`. -/
def fmtBin (sign : Bool) (implicit : Char) (m : List Char) (e : Int) : List Char :=
  (if sign then '-' else '+') :: implicit :: '.' :: (m ++ (" x 2^".toList ++ Vfi.dec e))

/-- `REAL_TO_BINARY`, :113-164; `alt` selects the normalised form of subnormals (:96-106), its
absence the denormalised one (:80-88).  The class
is that of `FPCLASSIFY`. -/
def printBin (F : Fmt) (W : Nat) (alt : Bool) (x : Bits) : List Char :=
  let m := x.man * 2 ^ (F.ew + 1) % 2 ^ W
  if x.exp = 0 ∧ x.man = 0 then fmtBin x.sign '0' ['0'] 0
  else if x.exp = F.expInf ∧ x.man = 0 then (if x.sign then '-' else '+') :: "inf".toList
  else if x.exp = F.expInf then "+nan".toList
  else if x.exp = 0 then
    if alt then
      let offset := clz W m + 1
      fmtBin x.sign '1' (uintToBit W (m * 2 ^ offset % 2 ^ W)) (1 - (F.bias : Int) - offset)
    else fmtBin x.sign '0' (uintToBit W m) (1 - (F.bias : Int))
  else fmtBin x.sign '1' (uintToBit W m) ((x.exp : Int) - F.bias)

end Verif.Ieee
