import Verif.Base.Outcome

/-!
# The compiler driver

Model of `verificarlo.in.in`: sorting of the arguments `argparse` leaves alone, quoting, and the
command lines given to the shell.

Simplifications.
* `argparse` itself is not modelled: the model starts from the list `other` of arguments it does
  not know (`verificarlo.in.in:497`).
* `subprocess.check_call(cmd, shell=True)` runs `/bin/sh -c cmd`.  Of the shell, word splitting
  at blanks and single quotes are modelled; an unquoted character with another meaning gives
  `Sh.special`, a distinct outcome about which nothing is claimed.
* Python's `str.lower` is modelled on ASCII.
-/

namespace Verif.Driver

/-! ## The shell -/

/-- What the shell makes of a command line. -/
inductive Sh where
  /-- A simple command with these words. -/
  | words (ws : List (List Char))
  /-- A quote is not closed: syntax error, nothing is run. -/
  | unterminated
  /-- An unquoted special character: outside the model. -/
  | special
deriving DecidableEq, Repr

/-- Characters with a meaning of their own outside quotes. -/
def isSpecial (c : Char) : Bool := "|&;<>()$`\\\"*?[#~{}!\n".toList.contains c

/-- Blanks between words. -/
def isSpace (c : Char) : Bool := c == ' ' || c == '\t'

/-- Add a word in front. -/
def Sh.cons (w : List Char) : Sh → Sh
  | .words ws => .words (w :: ws)
  | r => r

mutual
/-- Outside a quote; `cur` is the current word, reversed, if one has begun. -/
def shOut (cur : Option (List Char)) : List Char → Sh
  | [] => match cur with
    | none => .words []
    | some w => .words [w.reverse]
  | c :: t =>
    if isSpace c then
      match cur with
      | none => shOut none t
      | some w => (shOut none t).cons w.reverse
    else if c = '\'' then shIn (cur.getD []) t
    else if isSpecial c then .special
    else shOut (some (c :: cur.getD [])) t

/-- Inside single quotes. -/
def shIn (cur : List Char) : List Char → Sh
  | [] => .unterminated
  | c :: t => if c = '\'' then shOut (some cur) t else shIn (c :: cur) t
end

/-- The words of a command line. -/
def shWords (cmd : List Char) : Sh := shOut none cmd

/-! ## Arguments -/

/-- Position after the last `c`, if any, and what precedes it: `(before, after)`. -/
def rsplit (c : Char) (s : List Char) : Option (List Char × List Char) :=
  if s.contains c then
    let after := (s.reverse.takeWhile (· != c)).reverse
    some (s.take (s.length - after.length - 1), after)
  else none

/-- `os.path.splitext` on POSIX. -/
def splitext (p : List Char) : List Char × List Char :=
  let base := (p.reverse.takeWhile (· != '/')).reverse
  let dir := p.take (p.length - base.length)
  match rsplit '.' base with
  | none => (p, [])
  | some (stem, ext) => if stem.all (· == '.') then (p, []) else (dir ++ stem, '.' :: ext)

/-- `str.lower` on ASCII. -/
def lower (s : List Char) : List Char := s.map Char.toLower

/-- `FORTRAN_EXTENSIONS` (`verificarlo.in.in:49`). -/
def fortranExtensions : List (List Char) := [".f".toList, ".f90".toList, ".f77".toList]
/-- `C_EXTENSIONS` (`verificarlo.in.in:50`). -/
def cExtensions : List (List Char) := [".c".toList]
/-- `CXX_EXTENSIONS` (`verificarlo.in.in:51`). -/
def cxxExtensions : List (List Char) :=
  [".cc".toList, ".cp".toList, ".cpp".toList, ".cxx".toList, "c++".toList]
/-- `ASSEMBLY_EXTENSIONS` (`verificarlo.in.in:52`). -/
def assemblyExtensions : List (List Char) := [".s".toList]
/-- `LLVM_BITCODE_EXTENSIONS` (`verificarlo.in.in:53`). -/
def bitcodeExtensions : List (List Char) := [".bc".toList, ".ll".toList]

/-- `os.path.splitext(name)[1].lower() in extensions` (`verificarlo.in.in:106-123`). -/
def hasExt (exts : List (List Char)) (name : List Char) : Bool :=
  exts.contains (lower (splitext name).2)

/-- The classes of `parse_extra_args`. -/
inductive Kind where
  | source | library | option
deriving DecidableEq, Repr

/-- `fail` is called (`verificarlo.in.in:137-141`) on a Fortran source without `flang`. -/
def classify (flang : Bool) (a : List Char) : Outcome Kind :=
  if hasExt fortranExtensions a then (if flang then .ok .source else .exit)
  else if hasExt cExtensions a then .ok .source
  else if hasExt cxxExtensions a then .ok .source
  else if hasExt assemblyExtensions a then .ok .source
  else if hasExt bitcodeExtensions a then .ok .source
  else if ['-', 'l'].isPrefixOf a then .ok .library
  else .ok .option

/-- `shell_escape` (`verificarlo.in.in:126-128`). -/
def shellEscape (a : List Char) : List Char := ['\''] ++ a ++ ['\'']

/-- `" ".join(l)`. -/
def join : List (List Char) → List Char
  | [] => []
  | [a] => a
  | a :: l => a ++ ' ' :: join l

/-- What `parse_extra_args` returns before joining. -/
structure Extra where
  sources : List (List Char)
  options : List (List Char)
  libraries : List (List Char)
deriving DecidableEq, Repr

/-- `parse_extra_args` (`verificarlo.in.in:131-157`). -/
def parseExtra (flang : Bool) : List (List Char) → Outcome Extra
  | [] => .ok ⟨[], [], []⟩
  | a :: l => do
    let k ← classify flang a
    let e ← parseExtra flang l
    match k with
    | .source => .ok { e with sources := a :: e.sources }
    | .library => .ok { e with libraries := a :: e.libraries }
    | .option => .ok { e with options := shellEscape a :: e.options }

/-! ## Command lines -/

/-- `main` adds this option unless the linker is `flang` (`verificarlo.in.in:520-521`). -/
def mainOptions (isFlang : Bool) (options : List (List Char)) : List Char :=
  join options ++ (if isFlang then [] else " -Wno-unused-command-line-argument ".toList)

/-- `compiler_mode`: the command that compiles a source to the intermediate representation
(`verificarlo.in.in:353-356`); `emit` is `get_emit_format`, `debug` `" -g "` or nothing. -/
def irCommand (compiler emit debug source include_ options ir : List Char) : List Char :=
  compiler ++ " -c ".toList ++ emit ++ " -emit-llvm ".toList ++ debug ++ " ".toList ++ source ++
    " ".toList ++ (" -I ".toList ++ include_ ++ " ".toList) ++ " ".toList ++ [] ++ " ".toList ++
    options ++ " -o ".toList ++ ir

/-- `compiler_mode`: the command that makes the object file (`verificarlo.in.in:396-403`). -/
def objCommand (compiler output ins options : List Char) : List Char :=
  compiler ++ " -c ".toList ++ output ++ " ".toList ++ ins ++ " ".toList ++ options

/-- `os.path.splitext(source)[0] + ".o"` (`verificarlo.in.in:208, 396`). -/
def objectName (source : List Char) : List Char := (splitext source).1 ++ ".o".toList

/-- `linker_mode` without `-static` and without PRISM (`verificarlo.in.in:188-232`); `nopie` when
`--ddebug` or `--inst-func` is given. -/
def linkCommand (linker output : List Char) (sources : List (List Char)) (options libraries : List Char)
    (nopie : Bool) (wrapper mcalib stdlib : List Char) : List Char :=
  linker ++ " ".toList ++ output ++ " ".toList ++ join (sources.map objectName) ++ " ".toList ++
    (options ++ if nopie then " -no-pie ".toList else []) ++ " ".toList ++ libraries ++ " ".toList ++
    wrapper ++ "  ".toList ++ mcalib ++ " -ldl ".toList ++ stdlib ++ " ".toList

end Verif.Driver
