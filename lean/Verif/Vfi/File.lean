import Verif.Vfi.Model

/-!
# The precision profile file

`_vfi_write_hasmap`, `_vfi_scan_*`, `_vfi_read_hasmap` of
interflop_vprec_function_instrumentation.c:170-327, on texts without NUL characters.

`_vfi_scan_line` ignores the result of `fgets`: at the end of the file it tokenises an
uninitialised buffer.  Its contents is a parameter (`garbage`) of the model.
The number of allocated arguments (`calloc(0)` gives a non-NULL pointer, as glibc does), short
argument lines (rejected by an error right after reading stale tokens) are simplified.
-/

namespace Verif.Vfi
open Verif Verif.Vprec.Config

/-- `%d`. -/
def dec (n : Int) : List Char :=
  if n < 0 then '-' :: Nat.toDigits 10 n.natAbs else Nat.toDigits 10 n.natAbs

/-- `%hhd` of a `char` used as a Boolean. -/
def decB (b : Bool) : List Char := dec (if b then 1 else 0)

/-- Fields separated by tabulations, ended by a newline. -/
def tabbed : List (List Char) → List Char
  | [] => ['\n']
  | [x] => x ++ ['\n']
  | x :: y :: xs => x ++ '\t' :: tabbed (y :: xs)

/-- :177-184. -/
def writeHeader (f : Fn) : List Char :=
  tabbed [f.info.id, decB f.info.isLib, decB f.info.isIntr, decB f.info.useFloat, decB f.info.useDouble,
    dec f.prec64, dec f.range64, dec f.prec32, dec f.range32,
    dec (f.inArgs.getD []).length, dec (f.outArgs.getD []).length, dec f.nCalls]

/-- :186-192 and 195-201. -/
def writeArg (tag : String) (d : ArgData) : List Char :=
  tabbed [tag.toList, d.id, dec d.ty, dec d.manLen, dec d.expLen, dec d.minR, dec d.maxR]

def writeFn (f : Fn) : List Char :=
  writeHeader f ++ (f.inArgs.getD []).flatMap (writeArg "input:") ++ (f.outArgs.getD []).flatMap (writeArg "output:")

/-- `_vfi_write_hasmap`: the entries in the order of the table. -/
def write (fs : List Fn) : List Char := fs.flatMap writeFn

/-- `strtok_r(_, "\t", _)` until NULL; `cur` is the token being read. -/
def tok : List Char → List Char → List (List Char)
  | cur, [] => if cur = [] then [] else [cur]
  | cur, c :: cs =>
    if c = '\t' then (if cur = [] then tok [] cs else cur :: tok [] cs)
    else tok (cur ++ [c]) cs

/-- `fgets` on a non-empty rest of file: at most `n` characters, up to a newline. -/
def fgets : Nat → List Char → List Char × List Char
  | 0, s => ([], s)
  | _ + 1, [] => ([], [])
  | n + 1, c :: cs => if c = '\n' then ([c], cs) else ((c :: (fgets n cs).1), (fgets n cs).2)

/-- `_vfi_scan_line`, :218-232: tokens are copied in `cap` buffers of 256 characters. -/
def scanLine (cap : Nat) (garbage file : List Char) : Outcome (List (List Char) × List Char) :=
  let lr := if file = [] then (garbage, []) else fgets 2047 file
  let ts := tok [] lr.1
  if ts.length ≤ cap ∧ ∀ t ∈ ts, t.length ≤ 255 then .ok (ts, lr.2) else .ub

/-- `_vfi_scan_int`, :208-217. -/
def scanInt (t : List Char) : Outcome Int :=
  match strtol t with
  | none => .exit
  | some v => .ok v

/-- `(char)` and `(short)` of a `long`. -/
def toChar (v : Int) : Int := (v + 2 ^ 7) % 2 ^ 8 - 2 ^ 7
def toShort (v : Int) : Int := (v + 2 ^ 15) % 2 ^ 16 - 2 ^ 15

/-- A field read as a Boolean `char`. -/
def scanB (t : List Char) : Outcome Bool := do
  let v ← scanInt t
  return decide (toChar v ≠ 0)

/-- A field read as an `int`. -/
def scanI (t : List Char) : Outcome Int := do
  let v ← scanInt t
  return toInt v

/-- `_vfi_scan_header`, :234-259: the record without arguments and the two numbers of
arguments; `none` when there are not 12 tokens. -/
def scanHeader (garbage file : List Char) : Outcome (Option (Fn × Int × Int) × List Char) := do
  let (ts, rest) ← scanLine 12 garbage file
  match ts with
  | [t0, t1, t2, t3, t4, t5, t6, t7, t8, t9, t10, t11] =>
    let isLib ← scanB t1
    let isIntr ← scanB t2
    let useFloat ← scanB t3
    let useDouble ← scanB t4
    let prec64 ← scanI t5
    let range64 ← scanI t6
    let prec32 ← scanI t7
    let range32 ← scanI t8
    let nIn ← scanI t9
    let nOut ← scanI t10
    let nCalls ← scanI t11
    return (some (⟨⟨t0, isLib, isIntr, useFloat, useDouble⟩, prec64, range64, prec32, range32, none, none, nCalls⟩, nIn, nOut), rest)
  | _ => return (none, rest)

/-- `_vfi_scan_input`, `_vfi_scan_output`, :261-292 with the check of the number of tokens,
:310, 317.  The identifier is copied in a buffer of 128 characters. -/
def scanArg (garbage file : List Char) : Outcome (ArgData × List Char) := do
  let (ts, rest) ← scanLine 7 garbage file
  match ts with
  | [_, t1, t2, t3, t4, t5, t6] =>
    if t1.length ≤ 127 then
      let ty ← scanInt t2
      let man ← scanI t3
      let exp ← scanI t4
      let mn ← scanI t5
      let mx ← scanI t6
      return (⟨t1, toShort ty, mn, mx, exp, man⟩, rest)
    else .ub
  | _ => .exit

def scanArgs (garbage : List Char) : Nat → List Char → Outcome (List ArgData × List Char)
  | 0, file => .ok ([], file)
  | n + 1, file => do
    let (d, file) ← scanArg garbage file
    let (ds, file) ← scanArgs garbage n file
    return (d :: ds, file)

/-- `_vfi_read_hasmap`, :295-327: the records in the order of insertion.  `none` when the loop
has not ended after `fuel` iterations. -/
def readMap (garbage : List Char) : Nat → List Char → Outcome (Option (List Fn))
  | 0, _ => .ok none
  | fuel + 1, file => do
    let (h, file) ← scanHeader garbage file
    match h with
    | none => return some []
    | some (f, nIn, nOut) =>
      let (ins, file) ← scanArgs garbage nIn.toNat file
      let (outs, file) ← scanArgs garbage nOut.toNat file
      let fs ← readMap garbage fuel file
      return fs.map ({ f with inArgs := some ins, outArgs := some outs } :: ·)

end Verif.Vfi
