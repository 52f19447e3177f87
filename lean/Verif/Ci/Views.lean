import Mathlib.Data.List.Sort
import Mathlib.Data.List.Infix
import Verif.Ci.Report

/-!
# The views of the report that compare runs

/repo/src/tools/ci/vfc_ci_report: compare_runs.py and deterministic_compare.py, with
`gen_x_series` of helper.py.  The two files have the same widgets and callbacks: `det` tells
them apart.  Lines are of compare_runs.py, then of deterministic_compare.py.

What Bokeh does: assigning a value to an attribute of a widget calls the callbacks of that
attribute at once if the value is another one, and does nothing if it is the same.
What pandas does: `data.loc[t]` and `data.loc[t, v]` raise if no row matches;
`data.loc[[t], v, b]` raises if one of the labels is nowhere in its column.

An exception that nothing catches is `Outcome.exit`.  Simplifications: one statistic for each row;
what the filter of outliers removes in compare_runs.py is `Report.filterDots`, and is left out
here; tooltips and colours are left out.
-/

namespace Verif.Ci.Views
open Verif Verif.Ci.Report

/-- A row of the table of one probe in one run. -/
structure Row where
  test : Str
  probe : Str
  backend : Str
  timestamp : Int
  stat : ℚ := 0
deriving DecidableEq, Repr

/-- What is drawn: the labels of the axis and the rows. -/
structure Plot where
  x : List Str
  rows : List Row
deriving DecidableEq, Repr

structure View where
  /-- Is it the view of deterministic backends? -/
  det : Bool
  data : List Row
  /-- Column `name` of the metadata, by timestamp. -/
  names : List (Int × Str)
  /-- The tests given to the text filter when the widget is made, :505-511, 326-335. -/
  known : List Str
  testOpts : List Str
  varOpts : List Str
  backOpts : List Str
  test : Str
  var : Str
  back : Str
  /-- `current_n_runs`; 0 for all. -/
  n : Nat
  /-- The box `Filter outliers`. -/
  outliers : Bool
  plot : Plot
deriving DecidableEq, Repr

/-! ## The table -/

/-- `data.index.get_level_values("test").drop_duplicates().tolist()`. -/
def testsOf (d : List Row) : List Str := dedup (d.map Row.test)

/-- The variables of a test, :212-217, 138-143. -/
def varsOf (d : List Row) (t : Str) : List Str :=
  dedup ((d.filter fun r => decide (r.test = t)).map Row.probe)

/-- The backends of a variable of a test, :245-252, 171-179. -/
def backsOf (d : List Row) (t v : Str) : List Str :=
  dedup ((d.filter fun r => decide (r.test = t ∧ r.probe = v)).map Row.backend)

/-- `data.loc[[t], v, b]`, :95-99, 58-62. -/
def loc (d : List Row) (t v b : Str) : Outcome (List Row) :=
  if t ∈ d.map Row.test ∧ v ∈ d.map Row.probe ∧ b ∈ d.map Row.backend then
    .ok (d.filter fun r => decide (r.test = t ∧ r.probe = v ∧ r.backend = b))
  else .exit

/-! ## The plots -/

/-- `l[-n:]`, :118, 81: everything if `n` is 0. -/
def lastN {α : Type} (n : Nat) (l : List α) : List α := if n = 0 then l else l.drop (l.length - n)

/-- The names of the runs, helper.py:77-92 (`get_metadata`, :59-62, raises without a row). -/
def nameAll (names : List (Int × Str)) : List Int → Outcome (List Str)
  | [] => .ok []
  | t :: ts =>
    match names.lookup t with
    | none => .exit
    | some s => do
      let rest ← nameAll names ts
      return s :: rest

/-- `gen_x_series`, helper.py:65-99: of the last `n` timestamps. -/
def xSeries (names : List (Int × Str)) (ts : List Int) (n : Nat) : Outcome (List Str) :=
  let n := if n = 0 ∨ n > ts.length then ts.length else n
  nameAll names (ts.drop (ts.length - n))

/-- `sort_values(by=["timestamp"])`, :101, 64. -/
def byTime (rows : List Row) : List Row := rows.insertionSort fun r s => r.timestamp ≤ s.timestamp

/-- `update_plots`, :47-189, 48-109.  The filter of the deterministic view reads a column that does
not exist (deterministic_compare.py:92). -/
def updatePlots (s : View) : Outcome View :=
  if s.data = [] then .ok { s with plot := ⟨[], []⟩ }
  else do
    let runs ← loc s.data s.test s.var s.back
    let runs := byTime runs
    let x ← xSeries s.names ((runs.map Row.timestamp).insertionSort (· ≤ ·)) s.n
    if s.det && s.outliers then .exit
    else return { s with plot := ⟨lastN s.n x, lastN s.n runs⟩ }

/-! ## The callbacks -/

/-- Assignment to `select_backend.value`; `update_backend`, :265-267, 194-196. -/
def setBack (s : View) (b : Str) : Outcome View :=
  if b = s.back then .ok s else updatePlots { s with back := b }

/-- The second part of `update_var`, :244-263, 170-192. -/
def refreshVar (s : View) : Outcome View :=
  match backsOf s.data s.test s.var with
  | [] => .exit
  | b :: bs =>
    let s := { s with backOpts := b :: bs }
    if s.back ∉ b :: bs then setBack s b else updatePlots s

/-- Assignment to `select_var.value`, whose callback is `update_var`. -/
def setVar (s : View) (v : Str) : Outcome View :=
  if v = s.var then .ok s else refreshVar { s with var := v }

/-- Assignment to `select_var.options`, :218, 144: the callback is `update_var` too (:532, 361), with the
list (:236-242, 162-168). -/
def setVarOpts (s : View) (vs : List Str) : Outcome View :=
  if vs = s.varOpts then .ok s
  else
    let s := { s with varOpts := vs }
    match vs with
    | [] => .exit
    | v :: _ => if v ≠ s.var then setVar s v else refreshVar s

/-- The second part of `update_test`, :211-228, 137-154. -/
def refreshTest (s : View) : Outcome View :=
  match varsOf s.data s.test with
  | [] => .exit
  | v :: vs => do
    let s ← setVarOpts s (v :: vs)
    if s.var ∉ v :: vs then setVar s v else refreshVar s

/-- Assignment to `select_test.value`, whose callback is `update_test`.  The deterministic view leaves the
empty name alone (deterministic_compare.py:129-130). -/
def setTest (s : View) (t : Str) : Outcome View :=
  if t = s.test then .ok s
  else
    let s := { s with test := t }
    if s.det = true ∧ t = [] then .ok s else refreshTest s

/-- Assignment to `select_test.options`, by the text filter in the browser or when the repository changes:
the callback is `update_test` too (:499, 320), with the list (:197-209, 118-135). -/
def setTestOpts (s : View) (ts : List Str) : Outcome View :=
  if ts = s.testOpts then .ok s
  else
    let s := { s with testOpts := ts }
    match ts with
    | [] => .ok s
    | t :: _ =>
      if s.det = true ∧ t = [] then .ok s
      else if t ≠ s.test then setTest s t else refreshTest s

/-- `change_repo`, :591-624, 406-448.  The comparison of a value with itself is always true: the plots are
always updated. -/
def changeRepo (s : View) (d : List Row) (names : List (Int × Str)) : Outcome View := do
  let s := { s with data := d, names }
  match testsOf d with
  | [] =>
    if s.det then do
      let s ← setTestOpts s []
      let s ← setTest s []
      updatePlots s
    else .exit
  | t :: ts => do
    let s ← setTestOpts s (t :: ts)
    let s ← setTest s t
    updatePlots s

/-! ## Creation and events -/

inductive File | compare | deterministic | inspect
deriving DecidableEq, Repr

/-- The names imported by the files: compare_runs.py:30-40, deterministic_compare.py:29-40,
inspect_runs.py:30-42. -/
def imported : File → List String
  | .compare => ["helper", "plot", "CheckboxGroup", "ColumnDataSource", "CustomJS", "Panel", "Select", "Tabs", "TextInput"]
  | .deterministic => ["nan", "helper", "plot", "CheckboxGroup", "ColumnDataSource", "CustomJS", "Select", "TextInput", "figure"]
  | .inspect => ["helper", "np", "plot", "CheckboxGroup", "ColumnDataSource", "CustomJS", "Panel", "RadioButtonGroup", "Select", "Tabs",
      "figure"]

/-- The names used by `setup_plots`: compare_runs.py:289-440, deterministic_compare.py:216-258,
inspect_runs.py:388-467. -/
def plotNames : File → List String
  | .compare => ["figure", "plot", "Panel", "Tabs"]
  | .deterministic => ["figure", "plot"]
  | .inspect => ["figure", "plot", "Panel", "Tabs"]

/-- `setup_plots`: a name that is not defined raises. -/
def setupPlots (f : File) : Outcome Unit := if plotNames f ⊆ imported f then .ok () else .exit

/-- `setup_widgets` (:442-552, 260-385) and the first plots (:665, 485). -/
def init (det : Bool) (d : List Row) (names : List (Int × Str)) : Outcome View :=
  let none_ := "None".toList
  let ts := if d = [] then [none_] else testsOf d
  let t := ts.headD []
  let vs := if d = [] then [none_] else varsOf d t
  let v := vs.headD []
  let bs := if d = [] then [none_] else backsOf d t v
  let s : View := ⟨det, d, names, ts, ts, vs, bs, t, v, bs.headD [], 5, false, ⟨[], []⟩⟩
  updatePlots s

/-- The constructor, :628-665, 452-485. -/
def create (det : Bool) (d : List Row) (names : List (Int × Str)) : Outcome View := do
  setupPlots (if det then .deterministic else .compare)
  init det d names

/-- The first views made by the report, main.py:325-339. -/
def report (d e : List Row) (names : List (Int × Str)) : Outcome (View × View) := do
  let c ← create false d names
  let k ← create true e names
  return (c, k)

/-- What a visitor does. -/
inductive Ev
  | test (t : Str) | var (v : Str) | back (b : Str)
  | runs (n : Nat) | outliers (b : Bool)
  /-- A text in the filter of the tests. -/
  | filter (text : Str)
  | repo (d : List Row) (names : List (Int × Str))

/-- One event, with the callbacks it causes.  `update_n_runs`: :269-274, 198-205; the text filter: :471-473,
289-291. -/
def step (s : View) : Ev → Outcome View
  | .test t => setTest s t
  | .var v => setVar s v
  | .back b => setBack s b
  | .runs n => if n = s.n then .ok s else updatePlots { s with n }
  | .outliers b => if b = s.outliers then .ok s else updatePlots { s with outliers := b }
  | .filter text => setTestOpts s (s.known.filter fun e => decide (text <:+: e))
  | .repo d names => changeRepo s d names

def run : View → List Ev → Outcome View
  | s, [] => .ok s
  | s, e :: es => do let s ← step s e; run s es

end Verif.Ci.Views
