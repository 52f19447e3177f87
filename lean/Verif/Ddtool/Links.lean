import Mathlib.Data.List.Basic

/-!
# The directory that a search leaves

/repo/src/tools/ddebug/DD_stoch.py: the files of the tested sets, and the links to the sets found.

Simplifications: the directories of the sets are named by a function of the set (md5Name, :152-155; C44_names shows what is hashed); what
the runs leave in them is in Model.lean.  A search is the sequence of its tests and of the sets it reports.  `remove` of a line that is not
there is left out: the sets of a search are made of the lines of the reference.
-/

namespace Verif.Ddtool.Links

variable {α K : Type} [DecidableEq α] [DecidableEq K]

/-- The files `dd.line.include` and `dd.line.exclude` of a set. -/
structure Files (α : Type) where
  incl : List α
  excl : List α
deriving DecidableEq

/-- The directory `dd.line`: the files of the sets, and the links. -/
structure Dir (α K : Type) where
  files : K → Option (Files α)
  links : List Char → Option K

/-- `genExcludeIncludeFile` (DD_stoch.py:528-544), with the lines of the reference (:524-526). -/
def gen (lines c : List α) : Files α := ⟨c, c.foldl List.erase lines⟩

/-- The directory of a set that is tested (DD_stoch.py:550-554): files are written when it is made. -/
def prepare (name : List α → K) (lines c : List α) (d : Dir α K) : Dir α K :=
  match d.files (name c) with
  | some _ => d
  | none => { d with files := fun k => if k = name c then some (gen lines c) else d.files k }

/-- What a search does to the directory: it tests a set, or it reports one (`configuration_found`, DD_stoch.py:239-242). -/
inductive Event (α : Type) where
  | test (c : List α)
  | found (label : List Char) (c : List α)

/-- The set of an event. -/
def Event.set : Event α → List α
  | .test c => c
  | .found _ c => c

/-- `_test` and `testWithLink` (DD_stoch.py:167-170, 228-233). -/
def step (name : List α → K) (lines : List α) (d : Dir α K) : Event α → Dir α K
  | .test c => prepare name lines c d
  | .found label c =>
    let d := prepare name lines c d
    { d with links := fun l => if l = label then some (name c) else d.links l }

def run (name : List α → K) (lines : List α) (d : Dir α K) (evs : List (Event α)) : Dir α K := evs.foldl (step name lines) d

/-- The sets reported, in order. -/
def founds : List (Event α) → List (List Char × List α)
  | [] => []
  | .test _ :: es => founds es
  | .found l c :: es => (l, c) :: founds es

/-- `"ddmin%d" % (self.index)` (DD_stoch.py:287, 328, 476). -/
def ddmin (i : Nat) : List Char := "ddmin".toList ++ Nat.toDigits 10 i

/-- What `run` reports at its end (DD_stoch.py:263-265). -/
def complement (lines : List α) (confs : List (List α)) : List α := lines.filter fun x => x ∉ confs.flatten

/-- The reports of a search that has returned and reported sets: those reported, numbered from 0 (DD_stoch.py:180), and the complement
of those returned. -/
def reportsOf (lines : List α) (returned reported : List (List α)) : List (List Char × List α) :=
  (reported.zipIdx.map fun p => (ddmin p.2, p.1)) ++ [("rddmin-cmp".toList, complement lines returned)]

/-- The reports of `RDDMin` and `SRDDMin`, which return the sets they report (DD_stoch.py:284-294, 463-484). -/
def reports (lines : List α) (confs : List (List α)) : List (List Char × List α) := reportsOf lines confs confs

/-- The files that a link leads to. -/
def Dir.read (d : Dir α K) (l : List Char) : Option (Files α) := (d.links l).bind d.files

/-! ## What `DRDDMin` returns and reports

Parts of the search are functions that give the sets returned and the sets reported; Model.lean has them in full. -/

/-- Sets returned and sets reported. -/
abbrev Found (α : Type) := List (List α) × List (List α)

/-- One after the other. -/
def Found.append (a b : Found α) : Found α := (a.1 ++ b.1, a.2 ++ b.2)

/-- `for candidat in currentSplit` (DD_stoch.py:389-395): single lines are taken as they are. -/
def resplit (split : List α → Nat → Found α) (run : Nat) : List (List α) → Found α
  | [] => ([], [])
  | c :: cs => Found.append (if c.length = 1 then ([c], []) else split c run) (resplit split run cs)

/-- `SsplitDeltas` (DD_stoch.py:380-411). -/
def ssplit (split : List α → Nat → Found α) (deltas : List α) : List Nat → List (List α) → Found α
  | [], cur => (cur, [])
  | run :: runs, cur =>
    let next := resplit split run cur
    let more := split (deltas.filter fun x => x ∉ next.1.flatten) run
    let rest := ssplit split deltas runs (next.1 ++ more.1)
    (rest.1, next.2 ++ more.2 ++ rest.2)

/-- `for candidat in candidats` (DD_stoch.py:428-439), with the lines left. -/
def analyse (srdd : List α → Found α) : List (List α) → List α → Found α × List α
  | [], deltas => (([], []), deltas)
  | c :: cs, deltas =>
    let f := if c.length = 1 then ([c], []) else srdd c
    let r := analyse srdd cs (deltas.filter fun x => x ∉ f.1.flatten)
    (Found.append f r.1, r.2)

/-- `DRDDMin` (DD_stoch.py:414-447) on lines that fail. -/
def drddmin (split : List α → Nat → Found α) (srdd : List α → Found α) (passes : List α → Bool) (dicTab : List Nat) (deltas : List α) :
    Found α :=
  let s := ssplit split deltas dicTab [deltas]
  let r := analyse srdd s.1 deltas
  let f : Found α := (r.1.1, s.2 ++ r.1.2)
  if passes r.2 then f else f.append (srdd r.2)

end Verif.Ddtool.Links
