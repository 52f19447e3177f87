import Verif.Base.Outcome
import Verif.Float.Div
import Verif.Ieee.Cmp
import Verif.Probes.Model

/-!
# Checks of deterministic backends

/repo/src/tools/ci/test.py:227-288 and /repo/src/tools/ci/test_data_processing.py:164-185.

A row of the CSV file of the probes is the `Call` that wrote it (`Verif.Probes.Call`: names,
value, threshold, mode).  Python floats are binary64 data rounded to nearest even.  The rows
are handed to `validate_deterministic_probe` as objects (`DataFrame.apply` with columns of
several types), so a division by zero raises `ZeroDivisionError`; an exception that nothing
catches is `Outcome.exit`.  A missing reference value is a NaN.

Simplifications: the order in which pandas adds the thresholds is not fixed, `sum` is a
parameter; the names of the tests and of the variables are not numbers (pandas would convert
a column of numbers); the backend column is left out.
-/

namespace Verif.Ci
open Verif Verif.Fp Verif.Ieee Verif.Probes

/-- `abs` of Python on a float. -/
def fabs (x : Bits) : Bits := { x with sign := false }

/-- `x - y` of Python on floats. -/
def fsub (x y : Bits) : Bits := fadd b64 x (fneg y)

/-- `x / y` of Python on floats: `ZeroDivisionError` when `y` is zero. -/
def pydiv (x y : Bits) : Outcome Bits := if y.isZero then .exit else .ok (fdiv b64 x y)

/-- `x < y` of Python on floats. -/
def lt (x y : Bits) : Bool := isless b64 x y

/-- `validate_deterministic_probe`, test_data_processing.py:164-185. -/
def validate (mode : List Char) (value reference threshold : Bits) : Outcome Bool :=
  if mode = "absolute".toList then .ok (lt (fabs (fsub value reference)) (fabs threshold))
  else if mode = "relative".toList then
    pydiv (fabs (fsub value reference)) (fabs reference) >>= fun q => .ok (lt q (fabs threshold))
  else .ok true

/-- A row of the data of a deterministic backend, test.py:248-250, 277-284. -/
structure Result where
  probe : Call
  reference : Bits
  check : Bool
deriving DecidableEq, Repr

/-- `run_data["reference_value"] = reference_run_data["values"]`, test.py:277: the two tables
are aligned on their row numbers; a row that is missing gives a NaN. -/
def reference (refs : List Call) (i : Nat) : Bits :=
  match refs[i]? with
  | some c => c.value
  | none => nanBits b64

/-- The rows from number `i` on, test.py:277-280. -/
def checkRows (refs : List Call) : Nat → List Call → Outcome (List Result)
  | _, [] => .ok []
  | i, c :: cs =>
    validate c.mode c.value (reference refs i) c.threshold >>= fun b =>
    checkRows refs (i + 1) cs >>= fun rs => .ok (⟨c, reference refs i, b⟩ :: rs)

/-- `run_deterministic`, test.py:248-286, on the rows of the run and those of the reference
run.  The reference run takes place when the sum of the thresholds is not zero (:253). -/
def runDeterministic (sum : List Bits → Bits) (rows refs : List Call) : Outcome (List Result) :=
  if eqC b64 (sum (rows.map (·.threshold))) (zeroBits false) then
    .ok (rows.map fun c => ⟨c, zeroBits false, true⟩)
  else checkRows refs 0 rows

/-- The sums of a list of numbers, whatever the order of the additions. -/
inductive Sums : List Bits → Bits → Prop
  | nil : Sums [] (zeroBits false)
  | one (x : Bits) : Sums [x] x
  | add {l l' : List Bits} {x y : Bits} : Sums l x → Sums l' y → Sums (l ++ l') (fadd b64 x y)
  | perm {l l' : List Bits} {x : Bits} : Sums l x → l.Perm l' → Sums l' x

end Verif.Ci
