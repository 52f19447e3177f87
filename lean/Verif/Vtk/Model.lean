import Verif.Ci.Report

/-!
# The VTK postprocessing tool

Model of `src/tools/vtk/__main__.py` (the copy `src/tools/vfc-vtk.py` differs in its Python version only).

Simplifications.  A `.vtu` file is the list of the elements that contain `DataArray` elements (`PointData`, `CellData`, `Points`, `Cells` of each
piece), in document order, each with its arrays; this is where the format puts them.  The text of an array is the list of its numbers.  Arithmetic is
exact: `numpy` rounds the mean, the deviation and the logarithm.  Names with a quote make the search expression invalid, and `find` raises.
-/

namespace Verif.Vtk
open Verif

/-- A number written by the tool: a rational number, the root of one, or `-log10` of the root of one. -/
inductive Cell
  | num (q : ℚ)
  | root (q : ℚ)
  | digits (q : ℚ)
deriving DecidableEq

/-- A `DataArray` element: its attributes `type` and `Name`, all others, and its numbers if it has a text. -/
structure Arr (α : Type) where
  type : String
  name : Option String
  other : List (String × String)
  data : Option (List α)
deriving DecidableEq

/-- An element with arrays. -/
structure Section (α : Type) where
  tag : String
  arrays : List (Arr α)
deriving DecidableEq

abbrev Doc (α : Type) := List (Section α)

/-- The options `--std` and `--mean`, and whether elements have the method `copy`, which those of the C implementation of `xml.etree.ElementTree`, the
one that Python 3 imports when it is there, do not have. -/
structure Args where
  std : Bool := false
  mean : Bool := false
  copies : Bool := true

/-- What goes into the expression: `format` of `None` is `None` (vtk/__main__.py:81). -/
def shown (name : Option String) : String := name.getD "None"

/-- `.//DataArray[@type='Float32'][@Name='...']` (81). -/
def Arr.matches {α : Type} (n : String) (a : Arr α) : Bool := a.type == "Float32" && a.name == some n

/-- Where `find` finds the array: the number of the element, and of the array in it. -/
def locate {α : Type} (n : String) : Doc α → Option (Nat × Nat)
  | [] => none
  | s :: t =>
    match s.arrays.findIdx? (Arr.matches n) with
    | some j => some (0, j)
    | none => (locate n t).map fun p => (p.1 + 1, p.2)

/-- The names of all arrays of type `Float32`, in document order (75-77). -/
def names {α : Type} (d : Doc α) : List (Option String) := d.flatMap fun s => (s.arrays.filter (·.type == "Float32")).map (·.name)

def arrayAt {α : Type} (d : Doc α) (p : Nat × Nat) : Option (Arr α) := d[p.1]?.bind (·.arrays[p.2]?)

/-- The numbers of one trace (84-89).  No such array: the assertion fails; no text: `np.fromstring` raises. -/
def row (n : String) (d : Doc ℚ) : Outcome (List ℚ) :=
  match (locate n d).bind (arrayAt d) with
  | none => .exit
  | some a =>
    match a.data with
    | none => .exit
    | some xs => .ok xs

def rows (n : String) : List (Doc ℚ) → Outcome (List (List ℚ))
  | [] => .ok []
  | d :: ds => row n d >>= fun r => rows n ds >>= fun rs => .ok (r :: rs)

/-- The columns of the matrix, and `np.stack` (92), which raises on rows of different lengths. -/
def columns (rs : List (List ℚ)) : Outcome (List (List ℚ)) :=
  match rs with
  | [] => .exit
  | r :: _ =>
    if rs.all fun r' => r'.length == r.length then .ok ((List.range r.length).map fun j => rs.map fun r' => r'.getD j 0)
    else .exit

/-- Values of `numpy`: `neglog q` is `-log10 (sqrt q)`, for positive `q`. -/
inductive Val
  | nan
  | ninf
  | pinf
  | neglog (q : ℚ)
deriving DecidableEq

/-- `-np.log10(std / mean)` (99): 0/0 is not a number, nor is the logarithm of a negative number; the logarithm of zero is minus infinity. -/
def negLog (mean var : ℚ) : Val :=
  if mean = 0 then if var = 0 then .nan else .ninf
  else if var = 0 then .pinf
  else if mean < 0 then .nan
  else .neglog (var / mean ^ 2)

/-- The three assignments through masks (100-102). -/
def clamp : Val → Cell
  | .nan => .num 0
  | .ninf => .num 0
  | .pinf => .num 17
  | .neglog q => if 1 < q then .num 0 else if q < 1 / 10 ^ 34 then .num 17 else .digits q

/-- The accuracy of a column (93-102); `np.std` divides by the number of traces. -/
def accuracy (args : Args) (xs : List ℚ) : Cell :=
  if args.std then .root (Ci.Report.var xs) else clamp (negLog (Ci.Report.mean xs) (Ci.Report.var xs))

def setData (a : Arr Cell) (xs : List Cell) : Arr Cell := { a with data := some xs }

/-- The section an accuracy array goes to (117-121): that of the array or, for coordinates, the first `PointData`, and an exception if there is none. -/
def target (d : Doc Cell) (i : Nat) : Option Nat :=
  match d[i]? with
  | none => none
  | some s => if s.tag ≠ "Points" then some i else d.findIdx? (·.tag == "PointData")

/-- One name (79-124). -/
def mergeName (args : Args) (inputs : List (Doc ℚ)) (name : Option String) (output : Doc Cell) : Outcome (Doc Cell) :=
  let n := shown name
  if '\'' ∈ n.toList then .exit
  else
    rows n inputs >>= fun rs =>
    columns rs >>= fun cols =>
    match locate n output with
    | none => .exit
    | some (i, j) =>
      match arrayAt output (i, j) with
      | none => .exit
      | some a =>
        if args.copies then
          let means := cols.map fun c => Cell.num (Ci.Report.mean c)
          let output := if args.mean then output.modify i fun s => { s with arrays := s.arrays.modify j fun a => setData a means } else output
          match name, target output i with
          | some n, some k =>
            let acc : Arr Cell := { a with name := some (n ++ "_vfc_accuracy"), data := some (cols.map (accuracy args)) }
            .ok (output.modify k fun s => { s with arrays := acc :: s.arrays })
          | _, _ => .exit
        else .exit

def mergeNames (args : Args) (inputs : List (Doc ℚ)) : List (Option String) → Doc Cell → Outcome (Doc Cell)
  | [], d => .ok d
  | n :: ns, d => mergeName args inputs n d >>= mergeNames args inputs ns

def parsed (d : Doc ℚ) : Doc Cell :=
  d.map fun s => { tag := s.tag, arrays := s.arrays.map fun a => { type := a.type, name := a.name, other := a.other, data := a.data.map (·.map Cell.num) } }

/-- `merge_vtu` (63-127): what the output file contains afterwards, if there is no exception. -/
def mergeVtu (args : Args) (output : Doc ℚ) (inputs : List (Doc ℚ)) : Outcome (Doc Cell) :=
  mergeNames args inputs (names output) (parsed output)

/-! ## Directories -/

/-- A trace: the files of its directory. -/
abbrev Trace := List (String × Doc ℚ)

/-- What is at the place of the output. -/
inductive Place
  | nothing
  | file
  | dir (files : List (String × Doc Cell))

inductive Status
  | done
  | error (code : Nat)
  | exception
deriving DecidableEq

/-- The argument `-r`: a file, or a directory. -/
inductive Ref
  | none
  | file
  | dir

def isVtu (f : String) : Bool := ".vtu".toList.isSuffixOf f.toList

/-- `find_vtu` (49-53). -/
def vtus (t : Trace) : List String := (t.map (·.1)).filter isVtu

/-- The file in every trace (84-86); `ET.parse` raises where it is missing. -/
def gather (f : String) : List Trace → Outcome (List (Doc ℚ))
  | [] => .ok []
  | t :: ts =>
    match t.lookup f with
    | none => .exit
    | some d => gather f ts >>= fun ds => .ok (d :: ds)

def replace (f : String) (d : Doc Cell) (files : List (String × Doc Cell)) : List (String × Doc Cell) :=
  files.map fun p => if p.1 = f then (f, d) else p

/-- The loop over the files (154-157); a file is written at its end (127). -/
def mergeFiles (args : Args) (first : Trace) (traces : List Trace) : List String → List (String × Doc Cell) → Status × Place
  | [], out => (.done, .dir out)
  | f :: fs, out =>
    match first.lookup f, gather f traces with
    | some d, .ok ds =>
      match mergeVtu args d ds with
      | .ok d' => mergeFiles args first traces fs (replace f d' out)
      | _ => (.exception, .dir out)
    | _, _ => (.exception, .dir out)

/-- `postprocess` (130-157) on the directories of `INPUT_DIR`, as `os.listdir` gives them.  With `-r` a file is copied to the name of the output directory
and nothing can be opened below it; a directory cannot be copied by `copyfile`. -/
def postprocess (args : Args) (ref : Ref) (traces : List Trace) (out : Place) : Status × Place :=
  match traces with
  | [] => (.error 2, out)
  | first :: _ =>
    match out with
    | .nothing =>
      match ref with
      | .none => mergeFiles args first traces (vtus first) (first.map fun p => (p.1, parsed p.2))
      | .file => if vtus first = [] then (.done, .file) else (.exception, .file)
      | .dir => (.exception, .nothing)
    | _ => (.error 3, out)

end Verif.Vtk
