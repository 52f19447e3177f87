import Verif.Ci.Checks
import Verif.Float.Double

/-!
# Data of non-deterministic backends

/repo/src/tools/ci/test.py:52-128, 192-224, 360-382 and
/repo/src/tools/ci/test_data_processing.py:100-135.

A run of an executable is its backend and the rows of the CSV file of its probes; its file is
read by `pandas.read_csv`, whose default settings are part of the model: cells that spell a
missing value, and columns of numbers.  An exception that nothing catches is `Outcome.exit`.

Simplifications: a file that cannot be read is an empty list of rows (:58-101 return an empty
table); names contain no quote and no newline, and a column of names is not made of numbers
only; the rows of the final table are not sorted (:369, :378); only the columns used for the
checks are modelled.
-/

namespace Verif.Ci
open Verif Verif.Fp Verif.Ieee Verif.Probes

/-- The cells that pandas reads as missing values (`pandas._libs.parsers.STR_NA_VALUES`, used by
`read_csv` at test.py:56 as no argument says otherwise). -/
def naValues : List (List Char) :=
  ["-1.#IND", "1.#QNAN", "1.#IND", "-1.#QNAN", "#N/A N/A", "#N/A", "N/A", "n/a", "NA", "<NA>", "#NA",
   "NULL", "null", "NaN", "-NaN", "nan", "-nan", "None", ""].map String.toList

/-- A cell of a column of names. -/
def nameCell (s : List Char) : Option (List Char) := if s ∈ naValues then none else some s

/-- A column of numbers written by `%a`, then `float.fromhex` on each cell, test.py:56, 111,
114-116.  The text of an infinity (`inf`) or of a NaN (`nan`) is a number for pandas, other
texts (`0x1p+0`) are not.  A column of numbers only is converted to floats, and
`float.fromhex` raises `TypeError` on a float; in any other column the texts are kept, but a NaN is
a missing value, which is a float. -/
def hexColumn (xs : List Bits) : Outcome (List Bits) :=
  if xs ≠ [] ∧ ∀ x ∈ xs, x.exp = b64.expInf then .exit
  else if ∃ x ∈ xs, x.isNaN b64 then .exit
  else .ok xs

/-- A row of `results` and of `checks_data`, test.py:118-126. -/
structure Row where
  test : Option (List Char)
  var : Option (List Char)
  backend : List Char
  value : Bits
  threshold : Bits
  mode : List Char
deriving DecidableEq, Repr

/-- An execution: the executable, the backend and the rows of the file.  Nothing below depends
on the executable: it is only used in the warnings (test.py:213-217). -/
structure Run where
  executable : List Char
  backend : List Char
  calls : List Call

/-- `read_probes_csv`, test.py:52-128. -/
def readProbes (r : Run) : Outcome (List Row) :=
  hexColumn (r.calls.map (·.value)) >>= fun _ =>
  hexColumn (r.calls.map (·.threshold)) >>= fun _ =>
  .ok (r.calls.map fun c => ⟨nameCell c.test, nameCell c.var, r.backend, c.value, c.threshold, c.mode⟩)

/-- The tables of all executions, one after the other, test.py:202-222, 362, 370. -/
def readAll : List Run → Outcome (List Row)
  | [] => .ok []
  | r :: rs => readProbes r >>= fun a => readAll rs >>= fun b => .ok (a ++ b)

/-- The key of a group, test.py:364. -/
structure Key where
  test : List Char
  var : List Char
  backend : List Char
deriving DecidableEq, Repr

/-- The key of a row; `groupby` leaves out the rows whose key has a missing value. -/
def Row.key (r : Row) : Option Key :=
  match r.test, r.var with
  | some t, some v => some ⟨t, v, r.backend⟩
  | _, _ => none

/-- A group: the values, and the threshold and mode of its first row. -/
structure Group where
  key : Key
  values : List Bits
  threshold : Bits
  mode : List Char
deriving DecidableEq, Repr

/-- One more row in the groups: `groupby(...).values.apply(list)`, test.py:363-367, and
`drop_duplicates`, :371-373, which keeps the first row of each key. -/
def addRow (k : Key) (r : Row) : List Group → List Group
  | [] => [⟨k, [r.value], r.threshold, r.mode⟩]
  | g :: gs => if g.key = k then { g with values := g.values ++ [r.value] } :: gs else g :: addRow k r gs

/-- The groups of a table. -/
def groupRows (rows : List Row) : List Group :=
  rows.foldl (fun gs r => match r.key with | some k => addRow k r gs | none => gs) []

/-- The groups of all executions. -/
def collect (rs : List Run) : Outcome (List Group) := readAll rs >>= fun rows => .ok (groupRows rows)

/-- The check of a group, test_data_processing.py:120-133, from its average and standard
deviation; the division is that of numpy, which does not raise. -/
def checkGroup (mode : List Char) (mu sigma threshold : Bits) : Bool :=
  if mode = "absolute".toList then lt sigma (fabs threshold)
  else if mode = "relative".toList then lt (fabs (fdiv b64 sigma mu)) (fabs threshold)
  else true

/-- `np.average` of fewer than eight values: the sum from the left divided by the number of
values, test_data_processing.py:107. -/
def average (n : Bits) (xs : List Bits) : Bits := fdiv b64 (xs.foldl (fadd b64) (zeroBits false)) n

/-- `np.std` of fewer than eight values, up to the square root, test_data_processing.py:108. -/
def variance (n : Bits) (xs : List Bits) : Bits :=
  average n (xs.map fun x => fmul b64 (fsub x (average n xs)) (fsub x (average n xs)))

end Verif.Ci
