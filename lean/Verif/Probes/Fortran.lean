import Verif.Probes.Model

/-!
# Probes of Fortran programs

/repo/src/common/vfc_probes_f.f90, which binds `vfc_init_probes`, `vfc_free_probes`, `vfc_probe`, `vfc_num_probes` and `vfc_dump_probes` to
C (:32-66) and not those that make checks, and the wrappers of /repo/src/common/vfc_probes.c:266-289.

A name is passed as the address of its characters, without its length (`dimension(*)`, vfc_probes_f.f90:49-50): the C code reads
until a NUL, also behind the characters of the name.  What lies behind them is part of the call here; memory that ends before a NUL
is undefined behaviour.  (Reading behind an object is undefined in C as such; the model says what a machine does.)

The value is passed by address and read at once (vfc_probes.c:273), so it is a value here.
-/

namespace Verif.Probes
open Verif Verif.Fp

/-- The character that ends a C string. -/
def nul : Char := Char.ofNat 0

/-- What `strlen` and `strcpy` see of the memory at an address. -/
def cString (mem : List Char) : Outcome (List Char) := if nul ∈ mem then .ok (mem.takeWhile (· != nul)) else .ub

/-- A call of `vfc_probe` (vfc_probes_f.f90:44-52): the names as given, what lies behind each in memory, and the value. -/
structure FCall where
  test : List Char
  testBehind : List Char
  var : List Char
  varBehind : List Char
  value : Bits

/-- `vfc_probe_f` (vfc_probes.c:271-274) and the kernel it calls (:147-187): the first name is read and checked for a comma before the
second. -/
def recordF (addr : Nat → Nat) (st : State) (c : FCall) : Outcome State :=
  cString (c.test ++ c.testBehind) >>= fun t =>
    if ',' ∈ t then .exit
    else cString (c.var ++ c.varBehind) >>= fun v => record addr st (probe t v c.value)

def runF (addr : Nat → Nat) (cs : List FCall) : Outcome State := cs.foldlM (recordF addr) State.init

/-- `vfc_num_probes` (vfc_probes_f.f90:54-59): the result of C has 32 bits, and the caller reads a register of 64, whose upper half is
what the code left there. -/
def numProbesF (upper : Nat) (st : State) : Nat := numProbes st + 2 ^ 32 * (upper % 2 ^ 32)

/-- The file that a program writes which records probes and dumps them. -/
def fileF (addr : Nat → Nat) (cs : List FCall) : Outcome (Option (List Char)) :=
  runF addr cs >>= fun st => dump .file st >>= fun r => .ok r.1

end Verif.Probes
