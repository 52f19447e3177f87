import Verif.Cancel.Model
import Verif.Vprec.Config

/-!
# Configuration of the cancellation backend, from texts
-/

namespace Verif.Cancel.Config
open Verif Verif.Fp
open Verif.Vprec.Config (strtol toInt)

/-- `cancellation_context_t` (interflop_cancellation.h:26-31). -/
structure Cfg where
  base : Ctx
  chooseSeed : Bool
  seed : BitVec 64
deriving DecidableEq, Repr

/-- interflop_cancellation.c:283-288. -/
def init : Cfg := ⟨Cancel.init, false, 0⟩

inductive Req
  | cliTolerance (arg : List Char)
  /-- the option takes an argument (interflop_cancellation.c:208-209) -/
  | cliWarning (arg : List Char)
  | cliSeed (arg : List Char)
  /-- `cancellation_conf_t`: tolerance, warning, seed -/
  | configure (tolerance : Int) (warning : Bool) (seed : BitVec 64)

/-- `parse_opt` (interflop_cancellation.c:213-245) and `configure` (261-267). -/
def step (c : Cfg) : Req → Outcome Cfg
  | .cliTolerance a => match strtol a with
    | none => .exit
    | some v => do
      let b ← setTolerance (toInt v) c.base
      return { c with base := b }
  | .cliWarning _ => .ok { c with base := { c.base with warning := true } }
  | .cliSeed a => match strtol a with
    | none => .exit
    | some v => .ok { c with chooseSeed := true, seed := BitVec.ofInt 64 v }
  | .configure t w s => .ok ⟨⟨t, w⟩, true, s⟩

def run : List Req → Cfg → Outcome Cfg
  | [], c => .ok c
  | q :: qs, c => step c q >>= run qs

end Verif.Cancel.Config
