import Verif.Ddtool.Model
import Mathlib.Data.Nat.Log

/-!
# Options of the delta-debugging tool

Model of `src/tools/ddebug/dd_config.py`.  Environment values are strings; the value of an
attribute is a string or an integer.
-/

namespace Verif.Ddtool

/-- `exponentialRange(nbRun)`, `dd_config.py:6-9`.  `math.floor(math.log(nbRun, 2))` is
taken as the exact logarithm (Python's is exact below 2^47 samples); `math.log` raises for
0. -/
def exponentialRange (nbRun : Nat) : Res (List Nat) :=
  if nbRun = 0 then .exit
  else .ok ((List.range (1 + Nat.log 2 nbRun)).map fun i => nbRun / 2 ^ i).reverse

/-- Conversions asked of `readOneOption`. -/
inductive Conv
  | int
  | string
  | bool
  | intString
  | stringInt
  deriving DecidableEq

/-- Value of an attribute. -/
inductive Val
  | int (n : Int)
  | str (s : String)
  | true_
  deriving DecidableEq

/-- `readOneOption`, `dd_config.py:104-145`: `env` is the value of the variable if set,
`parse` Python's `int()` (`none`: `ValueError`, uncaught), `cur` the present value.  After
the test for `string/int` line 143 stores the string again, whether or not it was an
integer. -/
def readOneOption (parse : String → Option Int) (conv : Conv) (accepted : Option (List String))
    (env : Option String) (cur : Val) : Res Val :=
  match env with
  | none => .ok cur
  | some s =>
    match conv with
    | .int => match parse s with
      | none => .exit
      | some n => match accepted with
        | none => .ok (.int n)
        | some _ => .exit
    | conv =>
      let value := if conv = .bool then Val.true_ else .str s
      match accepted with
      | none => .ok value
      | some l =>
        if s ∈ l ∧ conv ≠ .bool then .ok value
        else if conv = .stringInt then .ok value
        else .exit

/-- The accepted words of `DD_DICHO_TAB`, `dd_config.py:98`. -/
def dichoWords : List String := ["exp", "all", "half", "single"]

/-- Reading `DD_DICHO_TAB`, `dd_config.py:94-99`, over the default of line 26. -/
def readDichoTab (parse : String → Option Int) (env : Option String) : Res Val :=
  readOneOption parse .intString (some dichoWords) env (.str "half")

/-- `get_rddMinTab`, `dd_config.py:170-178`; `none` is Python's `None`.  A negative number of
samples is left out. -/
def rddMinTab (param : String) (nbRUN : Nat) : Res (Option (List Nat)) :=
  if param = "exp" then exponentialRange nbRUN >>= fun l => .ok (some l)
  else if param = "all" then .ok (some ((List.range nbRUN).map (· + 1)))
  else if param = "single" then .ok (some [nbRUN])
  else .ok none

/-- `get_splitTab`, `dd_config.py:180-192`.  The branch of lines 190-191 (a numeral between 1
and the number of samples, put in the table as a string) is left out: no environment leads
to it (`C55_int_refused`).  The float `ceil(nbRUN / 2.0)` is taken as exact. -/
def splitTab (param : String) (nbRUN : Nat) : Res (Option (List Nat)) :=
  if param = "exp" then exponentialRange nbRUN >>= fun l => .ok (some l)
  else if param = "all" then .ok (some (List.range nbRUN))
  else if param = "single" then .ok (some [nbRUN])
  else if param = "half" then .ok (some [(nbRUN + 1) / 2])
  else .ok none

/-- `maxNbPROC` after `read_environ`, `dd_config.py:68-74`. -/
def maxNbPROC (nbRUN : Int) (m : Option Int) : Option Int :=
  match m with
  | none => none
  | some p => if p < nbRUN then none else some p

/-- The words of `DD_RDDMIN`, `dd_config.py:82`. -/
def variantWords : List String := ["s", "stoch", "d", "dicho", "", "strict"]

/-- The words of `DD_ALGO`, `dd_config.py:76`. -/
def algoWords : List String := ["ddmax", "rddmin"]

/-- Short names of the variants, `dd_config.py:84-89`. -/
def variantShort (v : String) : String :=
  let v := if v = "stoch" then "s" else v
  let v := if v = "dicho" then "d" else v
  if v = "strict" then "" else v

/-- The searches of `DDStoch.run`. -/
inductive Search
  | rddmin
  | srddmin
  | drddmin
  | ddmax
  deriving DecidableEq

/-- `get_ddAlgo` on the options read, `dd_config.py:76-89, 156-159`. -/
def ddAlgo (parse : String → Option Int) (algo variant : Option String) : Res String :=
  readOneOption parse .string (some algoWords) algo (.str "rddmin") >>= fun a =>
  readOneOption parse .string (some variantWords) variant (.str "d") >>= fun v =>
  match a, v with
  | .str a, .str v =>
    .ok (if "rddmin".toList.isSuffixOf a.toList then variantShort v ++ a else a)
  | _, _ => .exit

/-- The searches `DDStoch.run` starts for an algorithm name, in order, `DD_stoch.py:243-260`. -/
def searches (algo : String) : List Search :=
  (if algo = "rddmin" then [.rddmin] else []) ++
  (if "srddmin".toList.isPrefixOf algo.toList then [.srddmin] else []) ++
  (if "drddmin".toList.isPrefixOf algo.toList then [.drddmin] else []) ++
  (if algo = "ddmax" then [.ddmax] else [])

end Verif.Ddtool
