import Verif.Precexp.Model

/-!
# The report of the precision exploration

/repo/src/tools/optimize/report.py.  The four tables are the frames the exploration saves
(precexp.py:723, 763, 819-820), read back by pandas with the same contents.

Simplifications.
* The page is a list of sections with their entries; its fixed text is left out.  A picture is its
  file name, its title being left out, and the rows drawn.
* A Python exception is `none`.  `str.upper` is the one of ASCII.
* `sort_values` by one column is not stable: the order is a parameter.
* Drawing fails only without rows (`72 / len(Data.index)`, report.py:353).
-/

namespace Verif.Precexp
open Verif Verif.Vfi

/-- The fields of an identifier. -/
structure Info where
  callNb : Int
  line : Int
  parent : Id
  name : Id
  file : Id
deriving DecidableEq, Repr

/-- `GetFunctionInfo`, report.py:200-211. -/
def getInfo (id : Id) : Option Info := do
  let callNb ← pyInt (afterSlash id)
  let id1 := beforeSlash id
  let line ← pyInt (afterSlash id1)
  let id2 := beforeSlash id1
  let id3 := beforeSlash id2
  return ⟨callNb, line, afterSlash id3, afterSlash id2, afterSlash (beforeSlash id3)⟩

/-- `FilterFunctions`, report.py:214-226: `drop` and `reset_index` return new frames, which are not
kept. -/
def filterFunctions {α : Type} (id : α → Id) (_list : List Id) : List α → Option (List α)
  | [] => some []
  | r :: rs => do
    let _ ← getInfo (id r)
    return r :: (← filterFunctions id _list rs)

/-- Texts drawn, by file name. -/
inductive Drawing
  /-- `PlotArgs`, report.py:293-381. -/
  | args (rows : List ArgRow)
  /-- `PlotOps`, report.py:384-467. -/
  | ops (row : OpRow)
deriving DecidableEq, Repr

/-- A picture written. -/
structure Image where
  file : List Char
  drawing : Drawing
deriving DecidableEq, Repr

/-- A call site in the page: report.py:574-705.  Links are the pictures opened, if any. -/
structure Entry where
  chart : List Char
  name : Id
  file : Id
  line : Int
  ncalls : Int
  args : Option (List Char)
  ops : Option (List Char)
  argsOnly : Option (List Char)
  opsOnly : Option (List Char)
deriving DecidableEq, Repr

/-- A function in the page, report.py:541-546: the name of the section and its calls. -/
structure Section where
  name : Id
  entries : List Entry
deriving DecidableEq, Repr

/-- The page: the histogram of report.py:529-537 and the sections. -/
structure Page where
  bars : List (Id × Int)
  sections : List Section
deriving DecidableEq, Repr

def upper (s : List Char) : List Char := s.map Char.toUpper

/-- `str.replace(".", "_")`. -/
def undot (s : List Char) : List Char := s.map fun c => if c = '.' then '_' else c

/-- `dict` and `dict_index`, report.py:512-523: functions in the order in which they are met, with
their number of calls and the rows. -/
def addFunction (name : Id) (r : OpRow) : List (Id × Int × List OpRow) → List (Id × Int × List OpRow)
  | [] => [(name, r.ncalls, [r])]
  | (n, k, rs) :: ds => if n = name then (n, k + r.ncalls, rs ++ [r]) :: ds else (n, k, rs) :: addFunction name r ds

def functionTable : List OpRow → List (Id × Int × List OpRow) → Option (List (Id × Int × List OpRow))
  | [], ds => some ds
  | r :: rs, ds => do
    let i ← getInfo r.id
    functionTable rs (addFunction i.name r ds)

/-- `ChartID`, report.py:561-567. -/
def chartId (i : Info) : List Char := undot i.file ++ '_' :: undot i.name ++ '_' :: dec i.callNb

/-- `ImgDir + ImgID + ".png"`, as the links have it. -/
def png (id : List Char) : List Char := "img/".toList ++ id ++ ".png".toList

/-- `PlotArgs`. -/
def plotArgs (rows : List ArgRow) (id : List Char) : Option (List Image) :=
  if rows = [] then none else some [⟨png id, .args rows⟩]

/-- `PlotArgs` for a call with arguments, report.py:600, 656. -/
def argsImages (r : OpRow) (rows : List ArgRow) (id : List Char) : Option (List Image) :=
  if r.ninputs + r.noutputs ≠ 0 then plotArgs rows id else some []

/-- The tables read, report.py:475-493. -/
structure Tables where
  args : List ArgRow
  ops : List OpRow
  allArgs : List ArgRow
  allOps : List OpRow
deriving DecidableEq, Repr

/-- One call site, report.py:558-705. -/
def callEntry (t : Tables) (r : OpRow) : Option (List Image × Entry) := do
  let i ← getInfo r.id
  let chart := chartId i
  -- report.py:598
  let k ← t.ops.find? fun o => o.id == r.id
  let hasArgs := r.ninputs + r.noutputs ≠ 0
  let hasOps := ¬ (k.intr ≠ 0 ∨ k.lib ≠ 0)
  -- report.py:600-628
  let i1 ← argsImages r (t.allArgs.filter fun a => a.id == r.id) (chart ++ "_Args".toList)
  -- report.py:630-652
  let i2 := if hasOps then [(⟨png (chart ++ "_Ops".toList), .ops r⟩ : Image)] else []
  -- report.py:656-680
  let i3 ← argsImages r (t.args.filter fun a => a.id == r.id) (chart ++ "_ArgsOnly".toList)
  -- report.py:682-703
  let i4 := if hasOps then [(⟨png (chart ++ "_OpsOnly".toList), .ops r⟩ : Image)] else []
  return (i1 ++ i2 ++ i3 ++ i4,
    ⟨chart, upper i.name, i.file, i.line, r.ncalls,
     if hasArgs then some (png (chart ++ "_Args".toList)) else none,
     if hasOps then some (png (chart ++ "_Ops".toList)) else none,
     if hasArgs then some (png (chart ++ "_ArgsOnly".toList)) else none,
     if hasOps then some (png (chart ++ "_OpsOnly".toList)) else none⟩)

/-- The calls of one function. -/
def callEntries (t : Tables) : List OpRow → Option (List Image × List Entry)
  | [] => some ([], [])
  | r :: rs => do
    let (i, e) ← callEntry t r
    let (is, es) ← callEntries t rs
    return (i ++ is, e :: es)

/-- The functions, report.py:541-707. -/
def sections (sortRows : List OpRow → List OpRow) (t : Tables) :
    List (Id × Int × List OpRow) → Option (List Image × List Section)
  | [] => some ([], [])
  | (n, _, rs) :: ds => do
    let (i, es) ← callEntries t (sortRows rs)
    let (is, ss) ← sections sortRows t ds
    return (i ++ is, ⟨upper n, es⟩ :: ss)

/-- report.py:501-508. -/
def filterTables (argv : List Id) (t : Tables) : Option Tables :=
  if argv = [] then some t
  else do
    let args ← filterFunctions ArgRow.id argv t.args
    let ops ← filterFunctions OpRow.id argv t.ops
    let allOps ← filterFunctions OpRow.id argv t.allOps
    let allArgs ← filterFunctions ArgRow.id argv t.allArgs
    return ⟨args, ops, allArgs, allOps⟩

/-- `main` up to report.py:709: the pictures and what the page is to contain. -/
def build (sortTable : List (Id × Int × List OpRow) → List (Id × Int × List OpRow))
    (sortRows : List OpRow → List OpRow) (argv : List Id) (t : Tables) : Option (List Image × Page) := do
  let t ← filterTables argv t
  let table ← functionTable t.allOps []
  let table := sortTable table
  let (imgs, ss) ← sections sortRows t table
  return (imgs, ⟨table.map fun d => (upper d.1, d.2.1), ss⟩)

/-- Names assigned somewhere in `main`, hence local to it (report.py:475-716). -/
def mainLocals : List String :=
  ["DataArgs", "DataOps", "DataAllArgs", "DataAllOps", "CallChartString", "FunctionCallsStr", "FunctionList", "i",
   "dict", "dict_index", "CallNb", "Fline", "Fparent", "Fname", "Ffile", "SortedFunctions", "DataMain", "tmp_ops", "j",
   "ChartID", "RangeData", "ExponentData", "MantissaData", "OpsDoublePrec", "OpsFloatPrec", "k", "tmp_args",
   "ArgsOpsChartID", "ArgsChartID", "OpsChartID", "ReportString", "ReportFile"]

/-- Reading a name in a function: a local name that has no value yet is an `UnboundLocalError`. -/
def readName {α : Type} (locals : List String) (bound global : String → Option α) (name : String) : Option α :=
  if name ∈ locals then bound name else global name

/-- Last part of `main`, report.py:711-718: the page is written if the text of the module,
`ReportString`, can be read.  No assignment to it comes before. -/
def writePage (p : Page) : Option Page :=
  (readName mainLocals (fun _ => none) (fun n => if n = "ReportString" then some () else none) "ReportString").map
    fun _ => p

/-- `main`, report.py:470-718: the page written, if any. -/
def report (sortTable : List (Id × Int × List OpRow) → List (Id × Int × List OpRow))
    (sortRows : List OpRow → List OpRow) (argv : List Id) (t : Tables) : Option Page := do
  let (_, p) ← build sortTable sortRows argv t
  writePage p

end Verif.Precexp
