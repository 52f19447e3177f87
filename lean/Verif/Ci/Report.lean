import Verif.Base.Outcome
import Mathlib.Data.Rat.Defs
import Mathlib.Algebra.Order.Ring.Rat

/-!
# The report of `vfc_ci`

/repo/src/tools/ci/serve.py and /repo/src/tools/ci/vfc_ci_report: which runs a report shows
(main.py), how they are named (helper.py), which points the outlier filter removes (helper.py,
compare_runs.py, inspect_runs.py) and what the tables of checks show (checks.py).

Texts are lists of characters.  An exception that nothing catches is `Outcome.exit`.

Simplifications: all the names of a report are made at one instant; integer division instead of
`int(diff / unit)`; the statistics are rational numbers, and `distance < 3 * std` is the
comparison of the squares; the order of `os.listdir` is not observed, as the tables are sorted.
-/

namespace Verif.Ci.Report
open Verif

abbrev Str := List Char

/-- A row of the metadata table: one run. -/
structure Run where
  timestamp : Int
  /-- Empty for a run that was not made for a commit (test.py:161). -/
  hash : Str := []
  url : Str := []
  branch : Str := []
deriving DecidableEq, Repr

/-! ## Names of the runs -/

/-- `"%s minute%s ago" % (n, plural)`, helper.py:155-179. -/
def ago (n : Nat) (unit : Str) : Str :=
  Nat.toDigits 10 n ++ " ".toList ++ unit ++ (if n ≠ 1 then "s".toList else []) ++ " ago".toList

/-- The age of a run, helper.py:136-179. -/
def age (diff : Int) : Str :=
  if diff < 60 then "Less than a minute ago".toList
  else
    let d := diff.toNat
    if d < 3600 then ago (d / 60) "minute".toList
    else if d < 86400 then ago (d / 3600) "hour".toList
    else if d < 604800 then ago (d / 86400) "day".toList
    else if d < 2592000 then ago (d / 604800) "week".toList
    else ago (d / 2592000) "month".toList

/-- `"%s (%s)" % (s, x)`. -/
def paren (s x : Str) : Str := s ++ " (".toList ++ x ++ ")".toList

/-- The name before the search for duplicates, helper.py:138-143, 154-183. -/
def base (now : Int) (r : Run) : Str :=
  if r.hash ≠ [] then paren (age (now - r.timestamp)) r.hash else age (now - r.timestamp)

/-- `get_run_name.previous` and `get_run_name.counter`, helper.py:202-203. -/
structure Namer where
  previous : Str := []
  counter : Nat := 0
deriving DecidableEq, Repr

/-- helper.py:145-150 and 186-195. -/
def number (s : Namer) (b : Str) : Str × Namer :=
  if b = s.previous then
    (paren b (Nat.toDigits 10 (s.counter + 1)), { s with counter := s.counter + 1 })
  else (b, { previous := b, counter := 0 })

def numberAll (s : Namer) : List Str → List Str
  | [] => []
  | b :: bs => (number s b).1 :: numberAll (number s b).2 bs

/-- The column `name`, main.py:193-196.  For each timestamp the row is looked up again: when two
rows have the same timestamp the lookup gives a table, and `hash != ""` raises. -/
def names (now : Int) (rs : List Run) : Outcome (List Str) :=
  if (rs.map Run.timestamp).Nodup then .ok (numberAll {} (rs.map (base now))) else .exit

/-- Assignment to a key of a dict. -/
def insert (d : List (Str × Int)) (k : Str) (v : Int) : List (Str × Int) :=
  match d with
  | [] => [(k, v)]
  | (k', v') :: d => if k = k' then (k, v) :: d else (k', v') :: insert d k v

/-- `gen_runs_selection`, helper.py:276-293: from the names to the timestamps. -/
def selection (rows : List (Str × Int)) : List (Str × Int) :=
  rows.foldl (fun d r => insert d r.1 r.2) []

/-! ## The outlier filter -/

def mean (xs : List ℚ) : ℚ := xs.sum / xs.length

/-- The square of `np.std`. -/
def var (xs : List ℚ) : ℚ := (xs.map fun x => (x - mean xs) ^ 2).sum / xs.length

/-- `detect_outliers`, helper.py:231-248.  The result is used as a list of truth values: when the
standard deviation is zero it is the data (:242-243), of which the zeros are false. -/
def detect (xs : List ℚ) : List Bool :=
  if xs.length ≤ 2 then xs.map fun _ => true
  else if var xs = 0 then xs.map fun x => decide (x ≠ 0)
  else xs.map fun x => decide ((x - mean xs) ^ 2 < 9 * var xs)

/-- `remove_outliers`, helper.py:251-252: `itertools.compress`. -/
def compress {α : Type} : List α → List Bool → List α
  | a :: as, b :: bs => if b then a :: compress as bs else compress as bs
  | _, _ => []

/-- A dot plot of `compare_runs`: the names of the runs, the statistic, and the colours, which tell
the failed checks.  Other columns (compare_runs.py:129-137) are treated as the colours. -/
structure Dots where
  x : List Str
  stat : List ℚ
  colours : List Bool
deriving DecidableEq

/-- compare_runs.py:143-152. -/
def filterDots (d : Dots) : Dots :=
  let keep := detect d.stat
  { d with stat := compress d.stat keep, x := compress d.x keep }

/-- A plot of boxes of `inspect_runs` (:181-190): other columns are treated as these. -/
structure Boxes where
  x : List Str
  min : List ℚ
  max : List ℚ
deriving DecidableEq

/-- `remove_boxplot_outliers`, helper.py:255-273: the parameter is replaced at once (:256). -/
def removeBoxes (d : Boxes) (_outliers : List Bool) : Boxes :=
  let outliers := detect d.max
  { x := compress d.x outliers, min := compress d.min outliers, max := compress d.max outliers }

/-- inspect_runs.py:193-199. -/
def filterBoxes (d : Boxes) : Boxes :=
  let top := detect d.max
  let d := removeBoxes d top
  let bottom := detect d.min
  removeBoxes d bottom

/-! ## Which runs are shown -/

/-- `sort_index`, main.py:105. -/
def sortRuns : List Run → List Run
  | [] => []
  | r :: rs =>
    let rec ins (r : Run) : List Run → List Run
      | [] => [r]
      | s :: ss => if r.timestamp ≤ s.timestamp then r :: s :: ss else s :: ins r ss
    ins r (sortRuns rs)

/-- main.py:105-132: the runs left in the metadata and the last timestamp.  `drop` removes the
labels of the last rows, that is all the rows with these timestamps; `head` keeps the first
rows; `iloc[-1]` on an empty table raises. -/
def selectRuns (rs : List Run) (maxFiles ignoreRecent : Nat) : Outcome (List Run × Int) :=
  let m := sortRuns rs
  let gone := (m.drop (m.length - ignoreRecent)).map Run.timestamp
  let m := if ignoreRecent ≠ 0 then m.filter fun r => decide (r.timestamp ∉ gone) else m
  let k := min maxFiles m.length
  let m := m.take k
  match m.getLast? with
  | none => .exit
  | some r => .ok (m, r.timestamp)

/-- main.py:135-146: the runs whose data is read. -/
def readRuns (rs : List Run) (last : Int) : List Run := rs.filter fun r => decide (r.timestamp ≤ last)

/-! ## Names of the repositories -/

/-- `drop_duplicates`. -/
def dedup : List Str → List Str
  | [] => []
  | a :: as => a :: (dedup as).filter fun b => decide (b ≠ a)

/-- `s.split("/")`. -/
def splitSlash : Str → List Str
  | [] => [[]]
  | c :: cs =>
    match splitSlash cs with
    | [] => [[c]]
    | w :: ws => if c = '/' then [] :: w :: ws else (c :: w) :: ws

/-- The name of one repository, helper.py:46-54.  `path` is the path of the URL (`urlparse`), here
the URL itself: what precedes the path does not change its last two parts when there
are two. -/
def repoName (url : Str) (branch : Option Str) : Outcome Str :=
  if url = [] then .ok "None".toList
  else
    match (splitSlash url).reverse, branch with
    | last :: prev :: _, some b => .ok (prev ++ "/".toList ++ last ++ ":".toList ++ b)
    | _, _ => .exit

/-- `gen_repo_names`, helper.py:37-56: `i`-th URL with `i`-th branch. -/
def repoNames (branches : List Str) : Nat → List Str → Outcome (List (Str × Str))
  | _, [] => .ok []
  | i, u :: us => do
    let n ← repoName u branches[i]?
    let rest ← repoNames branches (i + 1) us
    return (u, n) :: rest

/-- main.py:271-276: the name of the repository of each run. -/
def runRepos (rs : List Run) : Outcome (List Str) := do
  let d ← repoNames (dedup (rs.map Run.branch)) 0 (dedup (rs.map Run.url))
  return rs.map fun r => (d.lookup r.url).getD []

/-! ## The tables of checks -/

/-- A row of the data: its run, its name, and whether there is a check. -/
structure Probe where
  timestamp : Int
  name : Str
  checked : Bool
deriving DecidableEq, Repr

structure Checks where
  data : List Probe
  detData : List Probe
  /-- `runs_dict` -/
  runs : List (Str × Int)
  currentRun : Int
  currentNonDet : Option Int
  currentDet : Int
  /-- The values of the two selection widgets. -/
  nonDetValue : Str
  detValue : Str
  /-- The tables shown. -/
  nonDet : List Probe
  det : List Probe
deriving DecidableEq, Repr

/-- The rows of one run that have a check. -/
def rowsOf (data : List Probe) (t : Int) : List Probe :=
  data.filter fun p => decide (p.timestamp = t ∧ p.checked = true)

/-- `setup_widgets`, checks.py:112-169: the last run is selected. -/
def init (data detData : List Probe) (runs : List (Str × Int)) : Outcome Checks :=
  match runs.getLast? with
  | none => .exit
  | some (n, t) => .ok {
      data, detData, runs, currentRun := t, currentNonDet := none, currentDet := t,
      nonDetValue := n, detValue := n, nonDet := rowsOf data t, det := rowsOf detData t }

/-- `update_non_deterministic_run`, checks.py:38-68. -/
def updateNonDet (s : Checks) (name : Str) : Outcome Checks :=
  match s.runs.lookup name with
  | none => .exit
  | some t => .ok { s with currentNonDet := some t, nonDet := rowsOf s.data t }

/-- `update_deterministic_run`, checks.py:70-102: the rows of `self.current_run` are taken
(:76). -/
def updateDet (s : Checks) (name : Str) : Outcome Checks :=
  match s.runs.lookup name with
  | none => .exit
  | some t => .ok { s with currentDet := t, det := rowsOf s.detData s.currentRun }

/-- Assignment of the value of a widget: its callback is called when the value changes. -/
def setNonDet (s : Checks) (name : Str) : Outcome Checks :=
  if name = s.nonDetValue then .ok s else updateNonDet { s with nonDetValue := name } name

def setDet (s : Checks) (name : Str) : Outcome Checks :=
  if name = s.detValue then .ok s else updateDet { s with detValue := name } name

/-- `change_repo`, checks.py:278-313.  `update_non_deterministic_run` (:304) and
`update_deterministic_run` (:311) are methods called as functions: `NameError`. -/
def changeRepo (s : Checks) (data detData : List Probe) (runs : List (Str × Int)) : Outcome Checks :=
  match runs.getLast? with
  | none => .exit
  | some (n, t) => do
    let s := { s with data, detData, runs, currentRun := t, currentDet := t }
    if n = s.nonDetValue then .exit
    else
      let s ← setNonDet s n
      if n = s.detValue then .exit else setDet s n

/-- The messages of the user and of the other views.  `goto` is `switch_view`, checks.py:315-319,
sent by a click in a plot: there is no widget `select_check_run`, so `KeyError`. -/
inductive Event
  | nonDet (name : Str) | det (name : Str) | goto (name : Str)
deriving DecidableEq, Repr

def step (s : Checks) : Event → Outcome Checks
  | .nonDet n => setNonDet s n
  | .det n => setDet s n
  | .goto _ => .exit

/-- An exception in a callback is logged by the server and leaves the state as it was. -/
def run (s : Checks) : List Event → Checks
  | [] => s
  | e :: es => match step s e with
    | .ok s' => run s' es
    | _ => run s es

/-! ## The command of `vfc_ci serve` -/

/-- One component in the loop of `posixpath.normpath`, on a relative path; `acc` is reversed. -/
def normStep (acc : List Str) (c : Str) : List Str :=
  if c = [] ∨ c = ['.'] then acc
  else if c ≠ ['.', '.'] then c :: acc
  else
    match acc with
    | [] => [c]
    | p :: rest => if p = ['.', '.'] then c :: acc else rest

/-- `"/".join`. -/
def joinSlash : List Str → Str
  | [] => []
  | [w] => w
  | w :: ws => w ++ '/' :: joinSlash ws

/-- `os.path.normpath` of a text that does not begin with a slash (the commands begin with
`bokeh`). -/
def normpath (s : Str) : Str :=
  let p := joinSlash ((splitSlash s).foldl normStep []).reverse
  if p = [] then ['.'] else p

/-- The options of `vfc_ci serve`; `dirname` is the directory of the Python module. -/
structure Serve where
  dirname : Str
  directory : Str
  show_ : Bool := false
  port : Nat := 8080
  origin : Str := "*".toList
  logo : Str := []
  maxFiles : Nat := 0
  ignoreRecent : Nat := 0
deriving DecidableEq, Repr

/-- An optional argument, serve.py:33-35: left out when it is false in Python. -/
def optArg (name : Str) (value : Option Str) : Str :=
  match value with
  | none => []
  | some v => name ++ " ".toList ++ v

def natArg (n : Nat) : Option Str := if n = 0 then none else some (Nat.toDigits 10 n)

/-- The command as it is written, serve.py:31-59. -/
def rawCommand (o : Serve) : Str :=
  "bokeh serve ".toList ++ o.dirname ++ "/vfc_ci_report ".toList ++
  (if o.show_ then "--show".toList else []) ++ " --allow-websocket-origin=".toList ++ o.origin ++
  ":".toList ++ Nat.toDigits 10 o.port ++ " --port ".toList ++ Nat.toDigits 10 o.port ++
  " --args ".toList ++ ("directory ".toList ++ o.directory) ++ " ".toList ++
  optArg "logo".toList (if o.logo = [] then none else some o.logo) ++ " ".toList ++
  optArg "max_files".toList (natArg o.maxFiles) ++ " ".toList ++
  optArg "ignore_recent".toList (natArg o.ignoreRecent)

/-- The command given to the shell, serve.py:60-62. -/
def command (o : Serve) : Str := normpath (rawCommand o)

/-- The words of a command for the shell, when no character but the space is special; `cur` is the
beginning of a word. -/
def wordsFrom (cur : Str) : Str → List Str
  | [] => if cur = [] then [] else [cur]
  | c :: cs =>
    if c = ' ' then (if cur = [] then [] else [cur]) ++ wordsFrom [] cs
    else wordsFrom (cur ++ [c]) cs

def words (s : Str) : List Str := wordsFrom [] s

/-- The value that main.py:58-75 finds for an option: the word after the last word that is its
name; an option that is the last word raises `IndexError`. -/
def option (name : Str) : List Str → Outcome (Option Str)
  | [] => .ok none
  | [w] => if w = name then .exit else .ok none
  | w :: v :: ws => do
    let r ← option name (v :: ws)
    match r with
    | some x => return some x
    | none => if w = name then return some v else return none

end Verif.Ci.Report
