import Verif.Base.Outcome
import Verif.Hash.Model

/-!
# Delta-debug filters of the wrapper

/repo/src/vfcwrapper/main.c.in:43-53 (`CALL_OP_SIZE`), 163-193, 235-256, 535-558, 563-589.

An operation is identified by its return address, a 64-bit number.  A filter file lists the
addresses of the call instructions, 5 bytes before (x86-64).  The
description of an address printed by `addr2line` is an arbitrary function.  The tables are
those of `Verif.Hash`; `none` is an infinite loop in them.

`sscanf` with `%p` is simplified: no sign and no `(nil)`.
-/

namespace Verif.Wrapper
open Verif Verif.Hash

def callOpSize : Nat := 5

/-! ## Text of filter files -/

def isBlank (c : Char) : Bool := c == ' ' || c == '\t' || c == '\n' || c == '\r'

def hexDigit (c : Char) : Option Nat :=
  if '0'.toNat ≤ c.toNat ∧ c.toNat ≤ '9'.toNat then some (c.toNat - '0'.toNat)
  else if 'a'.toNat ≤ c.toNat ∧ c.toNat ≤ 'f'.toNat then some (c.toNat - 'a'.toNat + 10)
  else if 'A'.toNat ≤ c.toNat ∧ c.toNat ≤ 'F'.toNat then some (c.toNat - 'A'.toNat + 10)
  else none

/-- Digits read from the front, with the value so far. -/
def hexRun (acc : Nat) : List Char → Nat
  | [] => acc
  | c :: cs => match hexDigit c with
    | some v => hexRun (16 * acc + v) cs
    | none => acc

/-- After the prefix: at least one digit; `strtoul` saturates. -/
def hexNum (l : List Char) : Option Nat :=
  match l with
  | [] => none
  | c :: _ => if (hexDigit c).isSome then some (min (hexRun 0 l) (2 ^ 64 - 1)) else none

/-- `sscanf(line, "%p", &addr)`, :246. -/
def scanPtr (l : List Char) : Option Nat :=
  match l.dropWhile isBlank with
  | '0' :: 'x' :: cs => hexNum cs
  | '0' :: 'X' :: cs => hexNum cs
  | cs => hexNum cs

/-- Size of the line buffer, :242. -/
def lineSize : Nat := 2048

/-- One `fgets`: up to a newline, at most `n` characters. -/
def fgets1 : Nat → List Char → List Char × List Char
  | 0, t => ([], t)
  | _ + 1, [] => ([], [])
  | n + 1, c :: t => if c = '\n' then ([c], t) else ((c :: (fgets1 n t).1), (fgets1 n t).2)

/-- The loop of `vfc_read_filter_file`, :244-254, the addresses read; `fuel` is the length of the
text. -/
def fileAddrs : Nat → List Char → Outcome (List Nat)
  | 0, _ => .ok []
  | fuel + 1, t =>
    if t = [] then .ok []
    else match scanPtr (fgets1 (lineSize - 1) t).1 with
      | none => .exit
      | some a => fileAddrs fuel (fgets1 (lineSize - 1) t).2 >>= fun as => .ok (a :: as)

def readAddrs (t : List Char) : Outcome (List Nat) := fileAddrs (t.length + 1) t

/-- `vfc_hashmap_insert(map, (size_t)addr + CALL_OP_SIZE, addr + CALL_OP_SIZE)`, :247-248. -/
def insertAddr (m : Map) (a : Nat) : Option Map := m.insert ((a + callOpSize) % 2 ^ 64) ((a + callOpSize) % 2 ^ 64)

/-- `vfc_read_filter_file`, :237-256, on a fresh map; a file that cannot be opened is ignored
(`none`). -/
def readFilter (file : Option (List Char)) : Outcome (Option Map) :=
  match file with
  | none => .ok (some Map.create)
  | some t => readAddrs t >>= fun as => .ok (as.foldlM insertAddr Map.create)

/-! ## State -/

/-- The variables of :163-166: which variables are set, and the two tables. -/
structure DD where
  excludeSet : Bool
  includeSet : Bool
  generate : Bool
  must : Map
  mustnot : Map

/-- Environment variables; a set filter variable comes with the contents of the file it names, if
there is one. -/
structure DDEnv where
  exclude : Option (Option (List Char))
  include_ : Option (Option (List Char))
  generate : Bool

/-- A filter variable that is not set leaves the map empty. -/
def filterMap (v : Option (Option (List Char))) : Outcome (Option Map) :=
  match v with
  | none => .ok (some Map.create)
  | some f => readFilter f

/-- Initialisation, :535-558. -/
def ddInit (e : DDEnv) : Outcome (Option DD) :=
  if e.include_.isSome ∧ e.generate then .exit
  else
    filterMap e.include_ >>= fun mi =>
    filterMap e.exclude >>= fun me =>
    .ok (mi.bind fun mi => me.map fun me => ⟨e.exclude.isSome, e.include_.isSome, e.generate, mi, me⟩)

/-- The macro `ddebug`, :565-580, at return address `addr`: `true` when the native operation is
executed instead of the backends. -/
def DD.step (d : DD) (addr : Nat) : Option (Bool × DD) :=
  (if d.excludeSet then d.mustnot.have_ addr else some false).bind fun ex =>
  if ex then some (true, d)
  else if d.includeSet then
    (d.must.have_ addr).map fun inc => (!inc, d)
  else if d.generate then
    (d.must.insert addr addr).map fun m => (false, { d with must := m })
  else some (false, d)

/-- A run of the program: the return addresses of its operations in order. -/
def DD.run : DD → List Nat → Option (List Bool × DD)
  | d, [] => some ([], d)
  | d, r :: rs => (d.step r).bind fun x => (x.2.run rs).map fun y => (x.1 :: y.1, y.2)

/-! ## Generation -/

def hexChar (n : Nat) : Char := if n < 10 then Char.ofNat ('0'.toNat + n) else Char.ofNat ('a'.toNat + n - 10)

/-- The `k` low hexadecimal digits. -/
def hexPad : Nat → Nat → List Char
  | 0, _ => []
  | k + 1, n => hexChar (n / 16 ^ k % 16) :: hexPad k n

/-- A line of `addr2line -fpaCs`: the address, with as many digits as the tool prints, and the
function, file and line. -/
def genLine (width : Nat → Nat) (desc : Nat → List Char) (a : Nat) : List Char :=
  '0' :: 'x' :: (hexPad (width a) a ++ (':' :: ' ' :: (desc a ++ ['\n'])))

/-- The addresses of the live slots in table order, 5 bytes before the return addresses,
:172-178. -/
def genAddrs (m : Map) : List Nat :=
  (List.range (2 ^ m.nbits)).filterMap fun i =>
    if (m.slots i).1 ≠ 0 ∧ (m.slots i).1 ≠ 1 then some (((m.slots i).1 + 2 ^ 64 - callOpSize) % 2 ^ 64) else none

/-- Output of `ddebug_generate_inclusion`, :167-193. -/
def genText (width : Nat → Nat) (desc : Nat → List Char) (m : Map) : List Char := (genAddrs m).flatMap (genLine width desc)

/-- The file is opened without truncation, :168: what was there beyond the new text stays. -/
def overwrite (old new : List Char) : List Char := new ++ old.drop new.length

end Verif.Wrapper
