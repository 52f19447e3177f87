import Mathlib.Data.List.Sort
import Mathlib.Data.List.SplitOn
import Verif.Vfi.File

/-!
# Precision exploration, `vfc_precexp`

/repo/src/tools/optimize/precexp.py: the profile is read (`getProfile`), the configuration of
each attempt is written (`save`), the program is run and compared (`Check`), and the precision of
each field is searched by dichotomy.

Files are lists of characters, read in text mode without carriage returns.  A Python exception is
`.exit`.  `int()` is modelled on decimal texts without underscores; white space is ASCII.
Executing the program and the comparison script is an oracle `Nat → St → Bool`, the verdict of the
n-th execution on a configuration; the deterministic case ignores the first argument.
-/

namespace Verif.Precexp
open Verif Verif.Vfi

/-! ## Dichotomy -/

/-- The loop of `dich_search_operations` and `dich_search_arguments`, precexp.py:353-372, 490-509.
`chk n v` is the verdict of run number `n` with the field set to `v`; the result is the value left
in the field and the number of the next run.  `none`: not ended after `fuel` iterations. -/
def dich (chk : Nat → Nat → Bool) : Nat → Nat → Nat → Nat → Option (Nat × Nat)
  | 0, _, _, _ => none
  | fuel + 1, n, l, r =>
    let p := (r + l) / 2
    if chk n p then
      if r ≤ l then some (p, n + 1)
      else dich chk fuel (n + 1) l p
    else dich chk fuel (n + 1) (p + 1) r

/-- `dich_search_operations`, `dich_search_arguments`, precexp.py:325-372, 461-509: the lowest
value first. -/
def search (chk : Nat → Nat → Bool) (fuel n l r : Nat) : Option (Nat × Nat) :=
  if chk n l then some (l, n + 1) else dich chk fuel (n + 1) l r

/-! ## Frames -/

/-- A row of the frame of functions, precexp.py:204-225. -/
structure OpRow where
  id : Id
  lib : Int
  intr : Int
  float : Int
  double : Int
  prec64 : Int
  range64 : Int
  prec32 : Int
  range32 : Int
  ninputs : Int
  noutputs : Int
  ncalls : Int
deriving DecidableEq, Repr

/-- A row of the frame of arguments, precexp.py:233-253. -/
structure ArgRow where
  id : Id
  argId : Id
  lib : Int
  intr : Int
  io : List Char
  ty : Int
  prec : Int
  range : Int
  min : Int
  max : Int
  ncalls : Int
deriving DecidableEq, Repr

/-- The two frames. -/
structure St where
  ops : List OpRow
  args : List ArgRow
deriving DecidableEq, Repr

/-! ## Reading the profile -/

/-- ASCII white space of `str.split()` and `int()`. -/
def isWs (c : Char) : Bool := c == ' ' || c == '\t' || c == '\n' || c == '\r' || c == '\x0b' || c == '\x0c'

/-- `f.readlines()`, precexp.py:110: lines keep their newline. -/
def readlines : List Char → List (List Char)
  | [] => []
  | c :: cs =>
    if c = '\n' then [c] :: readlines cs
    else match readlines cs with
      | [] => [[c]]
      | l :: ls => (c :: l) :: ls

/-- `str.split()`. -/
def splitWs (s : List Char) : List (List Char) := (s.splitOnP isWs).filter (· ≠ [])

/-- `str.split(sep="\t")`. -/
def splitTab (s : List Char) : List (List Char) := s.splitOnP (· == '\t')

/-- `str.strip()`. -/
def strip (s : List Char) : List Char := ((s.dropWhile isWs).reverse.dropWhile isWs).reverse

/-- The digits of `int()`. -/
def digitsVal (s : List Char) : Option Nat :=
  if s ≠ [] ∧ s.all Char.isDigit then some (s.foldl (fun a c => a * 10 + (c.toNat - '0'.toNat)) 0) else none

/-- `int(s)`; `none` is a `ValueError`. -/
def pyInt (s : List Char) : Option Int :=
  match strip s with
  | '-' :: ds => (digitsVal ds).map fun n => -(n : Int)
  | '+' :: ds => (digitsVal ds).map fun n => (n : Int)
  | ds => (digitsVal ds).map fun n => (n : Int)

/-- `s[s.rfind("/") + 1:]`. -/
def afterSlash (s : List Char) : List Char := (s.reverse.takeWhile (· != '/')).reverse

/-- `s[:s.rfind("/")]`; without a slash `rfind` gives -1 and the last character is dropped. -/
def beforeSlash (s : List Char) : List Char :=
  if s.any (· == '/') then (s.reverse.dropWhile (· != '/')).tail.reverse else s.dropLast

/-- `getFunctionInfo`, precexp.py:88-100: parent and name; the two numbers must be numbers. -/
def functionInfo (id : Id) : Option (Id × Id) := do
  let _ ← pyInt (afterSlash id)
  let id1 := beforeSlash id
  let _ ← pyInt (afterSlash id1)
  let id2 := beforeSlash id1
  return (afterSlash (beforeSlash id2), afterSlash id2)

/-- precexp.py:119-144. -/
def parseOp (line : List Char) : Option OpRow :=
  match splitTab line with
  | [t0, t1, t2, t3, t4, t5, t6, t7, t8, t9, t10, t11] => do
    return ⟨t0, ← pyInt t1, ← pyInt t2, ← pyInt t3, ← pyInt t4, ← pyInt t5, ← pyInt t6, ← pyInt t7, ← pyInt t8,
      ← pyInt t9, ← pyInt t10, ← pyInt t11⟩
  | _ => none

/-- precexp.py:176-198. -/
def parseArg (f : OpRow) (line : List Char) : Option ArgRow :=
  match splitWs line with
  | [io, argId, t2, t3, t4, t5, t6] => do
    return ⟨f.id, argId, f.lib, f.intr, io, ← pyInt t2, ← pyInt t3, ← pyInt t4, ← pyInt t5, ← pyInt t6, f.ncalls⟩
  | _ => none

/-- The loop of precexp.py:118-202, from a line that starts a function.  `fuel` bounds the number
of functions.  Negative numbers of arguments, which VPREC does not write, are read as zero. -/
def readFns (list : List Id) : Nat → List (List Char) → Option (List OpRow × List ArgRow)
  | _, [] => some ([], [])
  | 0, _ :: _ => none
  | fuel + 1, line :: rest => do
    let f ← parseOp line
    let (parent, name) ← functionInfo f.id
    let n := (f.ninputs + f.noutputs).toNat
    if list ≠ [] ∧ name ∉ list ∧ parent ∉ list then
      readFns list fuel (rest.drop n)
    else
      if rest.length < n then none else
      let args ← (rest.take n).mapM (parseArg f)
      let (fs, as) ← readFns list fuel (rest.drop n)
      return (f :: fs, args ++ as)

/-- `sort_values(["Ncalls", "ID"], ascending=False)`: may a row with key `a` come before one with
key `b`?  Characters are compared by code point. -/
def before (a b : Int × Id) : Bool :=
  decide (b.1 < a.1) || (a.1 == b.1 && decide (b.2.map Char.toNat ≤ a.2.map Char.toNat))

def OpRow.key (f : OpRow) : Int × Id := (f.ncalls, f.id)
def ArgRow.key (a : ArgRow) : Int × Id := (a.ncalls, a.id)

/-- `getProfile`, precexp.py:103-257.  The sort of pandas on several keys is stable. -/
def getProfile (list : List Id) (file : List Char) : Option St := do
  let ls := readlines file
  let (fs, as) ← readFns list ls.length ls
  return ⟨fs.insertionSort fun a b => before a.key b.key, as.insertionSort fun a b => before a.key b.key⟩

/-! ## Writing a configuration -/

/-- precexp.py:267-282. -/
def saveOp (f : OpRow) : List Char :=
  tabbed [f.id, dec f.lib, dec f.intr, dec f.float, dec f.double, dec f.prec64, dec f.range64, dec f.prec32,
    dec f.range32, dec f.ninputs, dec f.noutputs, dec f.ncalls]

/-- precexp.py:288-296. -/
def saveArg (a : ArgRow) : List Char := tabbed [a.io, a.argId, dec a.ty, dec a.prec, dec a.range]

/-- `save`, precexp.py:260-300: the arguments are taken in order, as many as the function has.
A missing row is a `KeyError`. -/
def save : List OpRow → List ArgRow → Option (List Char)
  | [], _ => some []
  | f :: fs, as =>
    let n := (f.ninputs + f.noutputs).toNat
    if as.length < n then none
    else (save fs (as.drop n)).map fun t => saveOp f ++ (as.take n).flatMap saveArg ++ t

/-! ## Exploration -/

/-- The fields of a row of functions that are searched. -/
inductive OpField | prec64 | range64 | prec32 | range32
deriving DecidableEq, Repr

/-- The fields of a row of arguments that are searched. -/
inductive ArgField | prec | range
deriving DecidableEq, Repr

/-- A cell of a frame: `Operations.at[index, field]`, `Arguments.at[index, field]`. -/
inductive Cell
  | op (i : Nat) (f : OpField)
  | arg (j : Nat) (f : ArgField)
deriving DecidableEq, Repr

def OpField.put (v : Int) (r : OpRow) : OpField → OpRow
  | .prec64 => { r with prec64 := v }
  | .range64 => { r with range64 := v }
  | .prec32 => { r with prec32 := v }
  | .range32 => { r with range32 := v }

def OpField.get (r : OpRow) : OpField → Int
  | .prec64 => r.prec64
  | .range64 => r.range64
  | .prec32 => r.prec32
  | .range32 => r.range32

def ArgField.put (v : Int) (r : ArgRow) : ArgField → ArgRow
  | .prec => { r with prec := v }
  | .range => { r with range := v }

def ArgField.get (r : ArgRow) : ArgField → Int
  | .prec => r.prec
  | .range => r.range

/-- Assignment to a cell of an existing row. -/
def St.put (st : St) (v : Int) : Cell → St
  | .op i f => { st with ops := st.ops.modify i (f.put v) }
  | .arg j f => { st with args := st.args.modify j (f.put v) }

def St.get (st : St) : Cell → Option Int
  | .op i f => st.ops[i]?.map f.get
  | .arg j f => st.args[j]?.map f.get

/-- What the exploration does to a cell: a search between two bounds, or an assignment. -/
inductive Act
  | search (c : Cell) (lo hi : Nat)
  | put (c : Cell) (v : Nat)
deriving DecidableEq, Repr

/-- `search_minimum_operations`, precexp.py:375-458.  The columns it tests are never assigned. -/
def minOps (i : Nat) (r : OpRow) : List Act :=
  (if r.double ≠ 0 then [.search (.op i .prec64) 1 52, .search (.op i .range64) 2 11]
   else [.put (.op i .prec64) 1, .put (.op i .range64) 2]) ++
  (if r.float ≠ 0 then [.search (.op i .prec32) 1 23, .search (.op i .range32) 2 8]
   else [.put (.op i .prec32) 1, .put (.op i .range32) 2])

/-- `search_minimum_arguments`, precexp.py:512-589. -/
def minArgs (j : Nat) (a : ArgRow) : List Act :=
  if a.ty = 0 ∨ a.ty = 2 then [.search (.arg j .prec) 1 23, .search (.arg j .range) 2 8]
  else if a.ty = 1 ∨ a.ty = 3 then [.search (.arg j .prec) 1 52, .search (.arg j .range) 2 11]
  else []

/-- The index of the functions compiled with verificarlo, precexp.py:227-231. -/
def compiled (r : OpRow) : Bool := r.lib == 0 && r.intr == 0

/-- Mode "operations", precexp.py:706-720. -/
def planOps (st : St) : List Act :=
  st.ops.zipIdx.flatMap fun ri => if compiled ri.1 then minOps ri.2 ri.1 else []

/-- The arguments of one function, precexp.py:744-757, 785-799: the rows with its identifier. -/
def argsOf (st : St) (r : OpRow) : List Act :=
  st.args.zipIdx.flatMap fun aj => if aj.1.id = r.id then minArgs aj.2 aj.1 else []

/-- Mode "arguments", precexp.py:740-759. -/
def planArgs (st : St) : List Act := st.ops.flatMap (argsOf st)

/-- Mode "all", precexp.py:780-818. -/
def planAll (st : St) : List Act :=
  st.ops.zipIdx.flatMap fun ri => argsOf st ri.1 ++ if compiled ri.1 then minOps ri.2 ri.1 else []

/-- One action; `n` is the number of the next run. -/
def act (chk : Nat → St → Bool) (fuel : Nat) (n : Nat) (st : St) : Act → Option (Nat × St)
  | .search c lo hi => (search (fun n v => chk n (st.put v c)) fuel n lo hi).map fun vn => (vn.2, st.put vn.1 c)
  | .put c v => some (n, st.put v c)

/-- An exploration; `none` when one of the searches has not ended after `fuel` iterations. -/
def explore (chk : Nat → St → Bool) (fuel : Nat) : List Act → Nat → St → Option (Nat × St)
  | [], n, st => some (n, st)
  | a :: as, n, st => (act chk fuel n st a).bind fun r => explore chk fuel as r.1 r.2

/-- `Check`, precexp.py:303-322, for a program whose VPREC backend reads the configuration file:
`prog` is the verdict of the run and the comparison, as a function of the table that was read.  A
run that ends in an error is a failure. -/
def check (garbage : List Char) (prog : List Fn → Bool) (_ : Nat) (st : St) : Bool :=
  match save st.ops st.args with
  | none => false
  | some file =>
    match readMap garbage (st.ops.length + 1) file with
    | .ok (some fs) => prog fs
    | _ => false

end Verif.Precexp
