import Verif.Cli.Backends
import Verif.Pass.Backends

/-!
# The backends a process runs with

`interflop_init` of each backend returns a table of functions (`Verif.Pass.Backends` and others) that work on the context the command line has set up
(vfcwrapper/main.c.in:486-504).  The state that all of them share is the memory of the process; each has its generator there (a `static` variable of
its library, seeded from its context at the first draw) and, for the IEEE backend, its counters.
-/

namespace Verif.Cli
open Verif Verif.Fp

/-- Where the backend number `i` keeps its generator and its counters. -/
structure Runtime (σ : Type) where
  gen : Nat → Mca.Gen σ
  bits : Nat → Bitmask.Gen σ
  count : Nat → Ieee.Op → σ → σ

/-- `interflop_init` (interflop_mca.c:942-975, interflop_mca_int.c:784-814, interflop_bitmask.c:730-761, interflop_cancellation.c:328-361,
interflop_ieee.c:564-591, interflop_vprec.c:1141-1171).  The IEEE backend counts operations if `--count-op` is given (interflop_ieee.c:286 and the like); what it
prints is left out here (`Verif.Pass.DebugBackend`).  Without function instrumentation nothing changes the context of VPREC later. -/
def backendOf {σ κ : Type} (m : Runtime σ) (sem : ShiftSem) (i : Nat) : Ctx → Wrapper.Backend σ κ
  | .mca .quad c => Pass.mcaBackend (Mca.quadPerturb (m.gen i)) (m.gen i) c.ctx
  | .mca .int c => Pass.mcaIntBackend sem (m.gen i) c.ctx
  | .bitmask c => Pass.bitmaskBackend (m.bits i) c.base
  | .cancel c => Pass.cancelBackend (m.gen i) c.base
  | .ieee c => Pass.ieeeBackend (if c.countOp then m.count i else fun _ s => s)
  | .vprec c => Pass.vprecBackend sem c.base

/-- The tables in the order of `VFC_BACKENDS`. -/
def backendsOf {σ κ : Type} (m : Runtime σ) (sem : ShiftSem) (cs : List Ctx) : List (Wrapper.Backend σ κ) :=
  cs.mapIdx (backendOf m sem)

end Verif.Cli
