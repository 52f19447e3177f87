import Verif.Ci.Views
import Verif.Ci.Stats

/-!
# The view of the report that inspects one run

/repo/src/tools/ci/vfc_ci_report/inspect_runs.py.  Assignments to widgets are as in `Verif.Ci.Views`.

An exception that nothing catches is `Outcome.exit`.  Simplifications: numpy computes exactly; the columns `s10` and `s2`, which
are treated as `sigma`, are left out; the groups are in the order of their first rows (pandas sorts them); the filter of outliers is
`Report.filterBoxes`, and is left out here.
-/

namespace Verif.Ci.Inspect
open Verif Verif.Ci.Report

/-- A row of the table. -/
structure Row where
  test : Str
  probe : Str
  backend : Str
  timestamp : Int
  mu : ℚ
  sigma : ℚ
  nsamples : Nat
deriving DecidableEq, Repr

/-- The factors, :479-483. -/
inductive Factor | variables | backends | tests
deriving DecidableEq, Repr

def factors : List Factor := [.variables, .backends, .tests]

/-- The column of a factor, :479-483. -/
def Factor.of : Factor → Row → Str
  | .variables, r => r.probe
  | .backends, r => r.backend
  | .tests, r => r.test

/-- One box, with the point of the plot of averages. -/
structure Group where
  x : Str
  mu : ℚ
  nsamples : Nat
  min : ℚ
  quantile25 : ℚ
  quantile50 : ℚ
  quantile75 : ℚ
  max : ℚ
  average : ℚ
deriving DecidableEq, Repr

/-! ## Groups -/

/-- Names of more than 39 characters are shortened, :86-89. -/
def shorten (s : Str) : Str := if s.length > 39 then s.take 17 ++ "[...]".toList ++ s.drop (s.length - 17) else s

/-- `np.average(mu, weights=nsamples)`, :77-79, which raises when the weights are zero. -/
def average (rows : List Row) : Outcome ℚ :=
  let w := (rows.map fun r => (r.nsamples : ℚ)).sum
  if w = 0 then .exit else .ok ((rows.map fun r => r.mu * (r.nsamples : ℚ)).sum / w)

/-- `data_processing`, :75-111, on one group. -/
def group (key : Str) (rows : List Row) : Outcome Group := do
  let mu ← average rows
  let xs := rows.map Row.sigma
  return ⟨shorten key, mu, rows.length, (Stats.sorted xs).headD 0, Stats.quantile (1 / 4) xs, Stats.quantile (1 / 2) xs,
    Stats.quantile (3 / 4) xs, (Stats.sorted xs).getLastD 0, mean xs⟩

def groupAll (by_ : Factor) (rows : List Row) : List Str → Outcome (List Group)
  | [] => .ok []
  | k :: ks => do
    let g ← group k (rows.filter fun r => decide (by_.of r = k))
    let gs ← groupAll by_ rows ks
    return g :: gs

structure View where
  data : List Row
  /-- `runs_dict` -/
  runs : List (Str × Int)
  /-- The value of the selector of runs. -/
  runName : Str
  /-- `current_run` -/
  run : Int
  runData : List Row
  /-- `groupby_radio.active` -/
  groupBy : Nat
  /-- `filterby_radio.labels` and `filterby_radio.active` -/
  labels : List Factor
  filterBy : Nat
  options : List Str
  value : Str
  plot : List Group
deriving DecidableEq, Repr

/-- `labels[active]`, which raises outside the list. -/
def nth (l : List Factor) (i : Nat) : Outcome Factor :=
  match l[i]? with
  | some f => .ok f
  | none => .exit

/-- `update_plots`, :115-255.  `np.vectorize` raises on no groups (:77). -/
def updatePlots (s : View) : Outcome View := do
  let g ← nth factors s.groupBy
  let f ← nth s.labels s.filterBy
  if s.runData = [] then return { s with plot := [] }
  else
    let rows := s.runData.filter fun r => decide (f.of r = s.value)
    if rows = [] then .exit
    else
      let gs ← groupAll g rows (dedup (rows.map g.of))
      return { s with plot := gs }

/-- Assignment to `select_filter.value`, whose callback is `update_filter`, :349-350. -/
def setValue (s : View) (v : Str) : Outcome View := if v = s.value then .ok s else updatePlots { s with value := v }

/-- The end of the three other callbacks, :273-288, 304-319, 332-345: new options, and the first one if the value is not among
them. -/
def refresh (s : View) : Outcome View := do
  let f ← nth s.labels s.filterBy
  let options := dedup (s.runData.map f.of)
  let s := { s with options }
  if s.value ∉ options then
    match options with
    | [] => .exit
    | v :: _ => setValue s v
  else updatePlots s

/-- Assignment to `select_run.value`, by the visitor, `switch_view` (:616-620) or `change_repo`; its callback is `update_run`,
:260-288. -/
def setRun (s : View) (name : Str) : Outcome View :=
  if name = s.runName then .ok s
  else
    let s := { s with runName := name }
    match s.runs.lookup name with
    | none => .exit
    | some t => refresh { s with run := t, runData := s.data.filter fun r => decide (r.timestamp = t) }

/-- `update_groupby`, :292-319: the factor is removed from the other list of buttons, whose active one stays. -/
def setGroupBy (s : View) (i : Nat) : Outcome View :=
  if i = s.groupBy then .ok s else refresh { s with groupBy := i, labels := factors.eraseIdx i }

/-- `update_filterby`, :323-345. -/
def setFilterBy (s : View) (i : Nat) : Outcome View := if i = s.filterBy then .ok s else refresh { s with filterBy := i }

/-- `setup_widgets`, :469-578, and the first plots, :668. -/
def init (data : List Row) (runs : List (Str × Int)) : Outcome View :=
  match runs.getLast? with
  | none => .exit
  | some (n, _) =>
    match runs.lookup n with
    | none => .exit
    | some t =>
      let runData := data.filter fun r => decide (r.timestamp = t)
      let options := if runData = [] then ["None".toList] else dedup (runData.map Factor.backends.of)
      updatePlots ⟨data, runs, n, t, runData, 0, factors.eraseIdx 0, 0, options, options.headD [], []⟩

/-- `change_repo`, :584-614. -/
def changeRepo (s : View) (data : List Row) (runs : List (Str × Int)) : Outcome View :=
  match runs.getLast? with
  | none => .exit
  | some (n, _) => do
    let s ← setRun { s with data, runs } n
    let f ← nth s.labels s.filterBy
    let s := { s with runData := s.data.filter fun r => decide (r.timestamp = s.run) }
    match dedup (s.runData.map f.of) with
    | [] => .exit
    | v :: vs => setValue { s with options := v :: vs } v

inductive Ev
  | run (name : Str) | groupBy (i : Nat) | filterBy (i : Nat) | filter (v : Str)
  | repo (data : List Row) (runs : List (Str × Int))

def step (s : View) : Ev → Outcome View
  | .run n => setRun s n
  | .groupBy i => setGroupBy s i
  | .filterBy i => setFilterBy s i
  | .filter v => setValue s v
  | .repo d runs => changeRepo s d runs

def go : View → List Ev → Outcome View
  | s, [] => .ok s
  | s, e :: es => do let s ← step s e; go s es

end Verif.Ci.Inspect
