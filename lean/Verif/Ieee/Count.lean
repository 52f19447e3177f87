import Verif.Vfi.File

/-!
# Operation counters of the IEEE backend under concurrency

/repo/src/backends/interflop-backend-ieee/interflop_ieee.c:282-413.  The threads of a program share
one context.  An operation is cut into its steps visible to other threads: computing the
result (`*c = a + b`, which touches no shared data) and the atomic read-modify-write of a
counter.  `__ATOMIC_RELAXED` read-modify-writes of one location are totally ordered (C11
5.1.2.4), so an execution is a sequence of such steps of the threads, in any order.  Printing
(`debug_print_*`) does not touch the counters and is left out.
-/

namespace Verif.Ieee
open Verif

/-- Entry points of the backend, per type (:282-396); `dbl` is the type. -/
inductive Kind
  | add | sub | mul | div | fma | cmp | cast
deriving DecidableEq, Repr

structure Op where
  kind : Kind
  dbl : Bool
deriving DecidableEq, Repr

/-- The counters of `ieee_context_t` (`IUint64_t`, interflop_ieee.h; initialised to zero
:433-445). -/
structure Counters where
  mul : BitVec 64 := 0
  div : BitVec 64 := 0
  add : BitVec 64 := 0
  sub : BitVec 64 := 0
  fma : BitVec 64 := 0
deriving DecidableEq, Repr

/-- The `__atomic_add_fetch` of each entry point, :286-288 (add), :296-298 (sub), :306-308 (mul),
:316-318 (div), :386-388 (fma) and their double versions; comparisons and casts count
nothing. -/
def Counters.bump (countOp : Bool) (c : Counters) (o : Op) : Counters :=
  if countOp then
    match o.kind with
    | .add => { c with add := c.add + 1 }
    | .sub => { c with sub := c.sub + 1 }
    | .mul => { c with mul := c.mul + 1 }
    | .div => { c with div := c.div + 1 }
    | .fma => { c with fma := c.fma + 1 }
    | .cmp => c
    | .cast => c
  else c

/-- A thread: the operation whose result is computed but which is not yet counted, and the
operations still to come. -/
structure Thread where
  mid : Option Op := none
  todo : List Op
deriving DecidableEq, Repr

structure CState where
  counters : Counters := {}
  threads : List Thread
deriving DecidableEq, Repr

/-- One step of one thread. -/
def Thread.step (countOp : Bool) (c : Counters) (t : Thread) : Counters × Thread :=
  match t.mid with
  | some o => (c.bump countOp o, { t with mid := none })
  | none =>
    match t.todo with
    | [] => (c, t)
    | o :: os => (c, { mid := some o, todo := os })

/-- The scheduler lets thread `i` make a step. -/
def CState.step (countOp : Bool) (s : CState) (i : Nat) : CState :=
  match s.threads[i]? with
  | none => s
  | some t => ⟨(t.step countOp s.counters).1, s.threads.set i (t.step countOp s.counters).2⟩

/-- A schedule. -/
def CState.run (countOp : Bool) (s : CState) (sched : List Nat) : CState := sched.foldl (CState.step countOp) s

/-- `finalize`, :402-413: the counters are printed with `%ld`, that is as signed numbers. -/
def finalize (countOp : Bool) (c : Counters) : List Char :=
  if countOp then
    "operations count:\n".toList ++ "\t mul=".toList ++ Vfi.dec c.mul.toInt ++ "\n\t div=".toList ++ Vfi.dec c.div.toInt ++
    "\n\t add=".toList ++ Vfi.dec c.add.toInt ++ "\n\t sub=".toList ++ Vfi.dec c.sub.toInt ++ "\n\t fma=".toList ++ Vfi.dec c.fma.toInt ++ "\n".toList
  else []

end Verif.Ieee
