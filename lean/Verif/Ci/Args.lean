import Verif.Ci.Report
import Verif.Precexp.Model

/-!
# The arguments of `vfc_ci serve`

/repo/src/tools/ci/__main__.py:35-59, 150-234: what is accepted on the command line and given to `serve.run` (Report.lean).

Simplifications: the words are already attributed to the options by `argparse`; `int` is that of Precexp/Model.lean, without underscores
between the digits.  A `ValueError` and an `ArgumentTypeError` both end the program with a message, `Outcome.exit`.
-/

namespace Verif.Ci.Args
open Verif Verif.Ci.Report Verif.Precexp

/-- `is_port` (__main__.py:38-42). -/
def isPort (s : Str) : Outcome Nat :=
  match pyInt s with
  | none => .exit
  | some v => if v < 0 ∨ v > 65535 then .exit else .ok v.toNat

/-- `is_strictly_positive` (__main__.py:55-59). -/
def isPositive (s : Str) : Outcome Nat :=
  match pyInt s with
  | none => .exit
  | some v => if v ≤ 0 then .exit else .ok v.toNat

/-- `is_directory` (__main__.py:45-52). -/
def isDirectory (isdir : Str → Bool) (s : Str) : Outcome Str := if isdir s then .ok s else .exit

/-- The words given for the options. -/
structure Given where
  directory : Option Str := none
  show_ : Bool := false
  port : Option Str := none
  origin : Option Str := none
  logo : Option Str := none
  maxFiles : Option Str := none
  ignoreRecent : Option Str := none

/-- A number that is not given is `None`, which `serve.run` treats as 0 (serve.py:34-35). -/
def optional (f : Str → Outcome Nat) (default : Nat) : Option Str → Outcome Nat
  | none => .ok default
  | some s => f s

/-- The arguments of `serve` (__main__.py:150-234).  The default of the directory is a text, so that it is checked as well. -/
def serveArgs (isdir : Str → Bool) (dirname : Str) (g : Given) : Outcome Serve := do
  let directory ← isDirectory isdir (g.directory.getD ".".toList)
  let port ← optional isPort 8080 g.port
  let maxFiles ← optional isPositive 0 g.maxFiles
  let ignoreRecent ← optional isPositive 0 g.ignoreRecent
  return { dirname, directory, show_ := g.show_, port, origin := g.origin.getD "*".toList, logo := g.logo.getD [], maxFiles, ignoreRecent }

/-- A number read by the report (main.py:55-56, 69-75); `none` is an exception. -/
def reading (name : Str) (default : Int) (argv : List Str) : Option Int :=
  match option name argv with
  | .ok none => some default
  | .ok (some w) => pyInt w
  | _ => none

end Verif.Ci.Args
