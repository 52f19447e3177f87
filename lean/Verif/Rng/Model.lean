import Verif.Base.Outcome
import Verif.Float.Format
import Mathlib.Logic.Function.Basic

/-!
# Random numbers

/repo/src/interflop-stdlib/rng/{splitmix64,xoroshiro128,vfc_rng}.c
-/

namespace Verif.Rng
open Verif Verif.Fp

abbrev U64 := BitVec 64

/-- `next_seed`, splitmix64.c:23-28.  The seed is passed by value. -/
def nextSeed (seed : U64) : U64 :=
  let z := seed + 0x9E3779B97F4A7C15#64
  let z := (z ^^^ (z >>> 30)) * 0xBF58476D1CE4E5B9#64
  let z := (z ^^^ (z >>> 27)) * 0x94D049BB133111EB#64
  z ^^^ (z >>> 31)

/-- `rotl`, xoroshiro128.c:25-27. -/
def rotl (x : U64) (k : Nat) : U64 := (x <<< k) ||| (x >>> (64 - k))

/-- `xoroshiro_state`: two words. -/
structure St where
  s0 : U64
  s1 : U64
deriving DecidableEq, Repr

/-- The value returned by `next`, xoroshiro128.c:29-32. -/
def output (s : St) : U64 := rotl (s.s0 + s.s1) 17 + s.s0

/-- The state left by `next`, xoroshiro128.c:34-36. -/
def next (s : St) : St :=
  let s1 := s.s1 ^^^ s.s0
  ⟨rotl s.s0 49 ^^^ s1 ^^^ (s1 <<< 21), rotl s1 28⟩

/-- `to_double`, xoroshiro128.c:49-55: the bits of a double in [1,2), then the machine
subtraction of one. -/
def toDouble (x : U64) : Bits :=
  let u : Nat := (0x3FF#64 <<< 52 ||| x >>> 12).toNat
  fadd b64 (ofPat b64 (decide (2 ^ 63 ≤ u)) (u % 2 ^ 63)) ⟨true, 1023, 0⟩

/-- `rng_state_t`, vfc_rng.h:27-32. -/
structure RngState where
  chooseSeed : Bool
  seed : U64
  valid : Bool
  st : St
deriving DecidableEq, Repr

/-- Zero-initialised thread-local storage. -/
def RngState.fresh : RngState := ⟨false, 0, false, ⟨0, 0⟩⟩

/-- `_init_rng_state_struct`, vfc_rng.c:67-74. -/
def initStruct (r : RngState) (choose : Bool) (seed : U64) (valid : Bool) : RngState :=
  if r.valid = false then { r with chooseSeed := choose, seed := seed, valid := valid } else r

/-- `_set_seed`, vfc_rng.c:40-53; `env` stands for the time and thread id read when no
seed was chosen. -/
def setSeed (r : RngState) (choose : Bool) (seed env : U64) : RngState :=
  let sd := if choose then seed else env
  { r with seed := sd, st := ⟨nextSeed sd, nextSeed sd⟩ }

/-- `_INIT_RANDOM_STATE`, vfc_rng.c:23-34.  `tid` is the value obtained from the
atomic counter (`pid_t`, sign-extended to 64 bits by the `^`). -/
def initRandom (r : RngState) (tid : BitVec 32) (env : U64) : RngState :=
  if r.valid = false then
    { (if r.chooseSeed then setSeed r true (r.seed ^^^ tid.signExtend 64) env
       else setSeed r false 0 env) with valid := true }
  else r

/-! ## Threads

The only shared variable is the counter `global_tid`, incremented atomically
(vfc_rng.c:61-63); everything else is thread-local (`static TLS rng_state_t`).  A
thread that draws executes: `_init_rng_state_struct` with the options of the
backend, then, if its state is not valid, the atomic increment, then the seeding, then
`next`.  Each of these is one step; the schedule decides which thread steps. -/

/-- Where a thread is in its next draw. -/
inductive Pc | idle | seeding (tid : BitVec 32)
deriving DecidableEq, Repr

structure Thread where
  pc : Pc
  rng : RngState
  /-- Numbers drawn so far, oldest first. -/
  out : List U64

structure Sys where
  tid : BitVec 32
  th : Nat → Thread

/-- Replace the state of one thread. -/
def Sys.set (s : Sys) (t : Nat) (th : Thread) : Sys :=
  { s with th := Function.update s.th t th }

def Sys.init : Sys := ⟨0, fun _ => ⟨Pc.idle, RngState.fresh, []⟩⟩

/-- One step of thread `t` with the seed `seed` chosen on the command line. -/
def Sys.step (seed : U64) (s : Sys) (t : Nat) : Sys :=
  let th := s.th t
  match th.pc with
  | .idle =>
    let r := initStruct th.rng true seed false
    if r.valid then
      s.set t ⟨Pc.idle, { r with st := next r.st }, th.out ++ [output r.st]⟩
    else
      Sys.set { s with tid := s.tid + 1 } t ⟨Pc.seeding (s.tid + 1), r, th.out⟩
  | .seeding k =>
    s.set t ⟨Pc.idle, initRandom th.rng k 0, th.out⟩

def Sys.run (seed : U64) (sched : List Nat) : Sys := sched.foldl (Sys.step seed) Sys.init

/-! ## Saving and restoring the generator

`*_push_seed` / `*_pop_seed`, e.g. interflop_mca_int.c:216-222. -/

structure Saved where
  cur : RngState
  slot : RngState

def push (s : Saved) (seed : U64) : Saved :=
  ⟨initStruct s.cur true seed false, s.cur⟩
def pop (s : Saved) : Saved := { s with cur := s.slot }

/-- One `get_rand_uint64`, vfc_rng.c:87-91. -/
def draw (r : RngState) (tid : BitVec 32) (env : U64) : U64 × RngState :=
  let r := initRandom r tid env
  (output r.st, { r with st := next r.st })

end Verif.Rng
