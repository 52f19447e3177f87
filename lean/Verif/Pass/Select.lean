import Verif.Base.Outcome

/-!
# Which functions the instrumentation pass selects

Model of `src/libvfcinstrument/libVFCInstrument.cpp`: the translation of wildcard patterns to
regular expressions, the include/exclude files, and the choice of the functions to instrument.

Simplifications.
* Text is a list of characters; the pass works on bytes.
* `std::regex` (ECMAScript grammar, libstdc++) is modelled for literals, `\.`-style escapes of
  syntax characters, `.`, `*` after a single character, `|` and `$`.  Anything else gives
  `Fail.unmodelled`, a distinct outcome about which nothing is claimed.
* Paths are POSIX paths that do not begin with two slashes.
-/

namespace Verif.Pass

/-- Ways for a computation of the pass not to return. -/
inductive Fail where
  /-- `report_fatal_error`. -/
  | fatal
  /-- A construct of `std::regex` outside the model. -/
  | unmodelled
deriving DecidableEq, Repr

/-! ## `std::regex` -/

/-- Single-character matchers. -/
inductive Single where
  | lit (c : Char)
  /-- `.`: anything but a line terminator (libstdc++: `\n` and `\r`). -/
  | any
deriving DecidableEq, Repr

/-- Does the matcher accept the character? -/
def Single.ok : Single → Char → Bool
  | .lit d, c => c == d
  | .any, c => c != '\n' && c != '\r'

/-- One term of an alternative. -/
inductive Atom where
  | one (x : Single)
  | star (x : Single)
  /-- `$`. -/
  | eol
deriving DecidableEq, Repr

/-- A regular expression: a disjunction of sequences of terms. -/
abbrev Re := List (List Atom)

/-- Any number of characters accepted by `x`, and then what `k` accepts. -/
def matchStar (x : Single) (k : List Char → Bool) : List Char → Bool
  | [] => k []
  | c :: s => k (c :: s) || (x.ok c && matchStar x k s)

/-- Does the sequence of terms match the whole text?  (`std::regex_match`: a backtracking
search, which succeeds iff some way of matching exists.) -/
def matchSeq : List Atom → List Char → Bool
  | [], s => s.isEmpty
  | .one x :: r, c :: s => x.ok c && matchSeq r s
  | .one _ :: _, [] => false
  | .eol :: r, s => s.isEmpty && matchSeq r s
  | .star x :: r, s => matchStar x (matchSeq r) s

/-- `std::regex_match(s, re)`. -/
def regexMatch (re : Re) (s : List Char) : Bool := re.any (fun alt => matchSeq alt s)

/-- Characters with a meaning of their own in the ECMAScript grammar. -/
def isSyntax (c : Char) : Bool := "^$\\.*+?()[]{}|".toList.contains c

/-- Parse one alternative after another; `acc` is the current alternative, reversed. -/
def parseFrom (acc : List Atom) : List Char → Option Re
  | [] => some [acc.reverse]
  | '|' :: t => (parseFrom [] t).map (acc.reverse :: ·)
  | '.' :: t => parseFrom (.one .any :: acc) t
  | '$' :: t => parseFrom (.eol :: acc) t
  | '*' :: t =>
    match acc with
    | .one x :: acc' => parseFrom (.star x :: acc') t
    | _ => none
  | '\\' :: c :: t => if isSyntax c then parseFrom (.one (.lit c) :: acc) t else none
  | c :: t => if isSyntax c then none else parseFrom (.one (.lit c) :: acc) t

/-- `std::regex(text)`. -/
def parseRegex (text : List Char) : Except Fail Re :=
  match parseFrom [] text with
  | some re => .ok re
  | none => .error .unmodelled

/-! ## Patterns -/

/-- `findAndReplaceAll` for a one-character search string
(`libVFCInstrument.cpp:146-157`): every occurrence is replaced, and the search goes on after
the replacement. -/
def findAndReplaceAll (c : Char) (by_ : List Char) : List Char → List Char
  | [] => []
  | d :: t => if d = c then by_ ++ findAndReplaceAll c by_ t
              else d :: findAndReplaceAll c by_ t

/-- `escape_regex` (`libVFCInstrument.cpp:159-164`). -/
def escapeRegex (s : List Char) : List Char :=
  findAndReplaceAll '*' ['.', '*'] (findAndReplaceAll '.' ['\\', '.'] s)

/-! ## Include and exclude files -/

/-- The characters `StringRef::trim` removes. -/
def isBlank (c : Char) : Bool :=
  c == ' ' || c == '\t' || c == '\n' || c == '\x0b' || c == '\x0c' || c == '\r'

/-- `StringRef::trim`. -/
def trim (s : List Char) : List Char :=
  ((s.dropWhile isBlank).reverse.dropWhile isBlank).reverse

/-- `StringRef::split(" ")`: around the first space; the second part is empty if there is none. -/
def splitSpace : List Char → List Char × List Char
  | [] => ([], [])
  | ' ' :: t => ([], t)
  | c :: t => (c :: (splitSpace t).1, (splitSpace t).2)

/-- `sys::path::filename` on POSIX, up to the difference between `.` and the empty name that
`has_extension` does not see. -/
def fileName (p : List Char) : List Char := (p.reverse.takeWhile (· != '/')).reverse

/-- `sys::path::has_extension`. -/
def hasExtension (p : List Char) : Bool :=
  let f := fileName p
  f.contains '.' && f != ['.'] && f != ['.', '.']

/-- `sys::path::is_relative` on POSIX. -/
def isRelative (p : List Char) : Bool := p.head? != some '/'

/-- The module pattern of an entry (`libVFCInstrument.cpp:225-233`). -/
def modPattern (mod : List Char) : List Char :=
  let mod := if isRelative mod then ['*', '/'] ++ mod else mod
  if hasExtension mod then mod else mod ++ ['.', '*']

/-- One line of the file: the text it appends to `moduleRegex`
(`libVFCInstrument.cpp:206-243`). -/
def lineRegex (moduleName line : List Char) : Except Fail (List Char) :=
  if line.head? = some '#' ∨ trim line = [] then .ok []
  else
    let p := splitSpace line
    if p.2 = [] then .error .fatal
    else do
      let mod := trim p.1
      let fun_ := trim p.2
      let mod := modPattern mod
      let mod := escapeRegex mod
      let fun_ := escapeRegex fun_
      let re ← parseRegex mod
      if regexMatch re moduleName then .ok (fun_ ++ ['|']) else .ok []

/-- The loop over the lines (`libVFCInstrument.cpp:206-243`). -/
def linesRegex (moduleName : List Char) : List (List Char) → Except Fail (List Char)
  | [] => .ok []
  | l :: ls => do
    let a ← lineRegex moduleName l
    let b ← linesRegex moduleName ls
    .ok (a ++ b)

/-- The successive results of `std::getline` on a text: a newline ends a line, and nothing
follows the last newline. -/
def getLines (t : List Char) : List (List Char) :=
  let p := t.splitOn '\n'
  if p.getLast? = some [] then p.dropLast else p

/-- A file named on the command line. -/
inductive File where
  /-- The option is not given: the name is the empty string. -/
  | absent
  /-- The file cannot be opened. -/
  | unreadable
  | text (t : List Char)
deriving DecidableEq, Repr

/-- Is the option given? -/
def File.given : File → Bool
  | .absent => false
  | _ => true

/-- `parseFunctionSetFile` (`libVFCInstrument.cpp:182-251`); `moduleName` is the absolute path
of the source file. -/
def parseFunctionSetFile (moduleName : List Char) : File → Except Fail Re
  | .absent => parseRegex []
  | .unreadable => .error .fatal
  | .text t => do
    let moduleRegex ← linesRegex moduleName (getLines t)
    parseRegex moduleRegex.dropLast

/-- `runOnModule` (`libVFCInstrument.cpp:264-313`): the functions selected, in order.
`function` is the value of `--function` (empty if not given). -/
def select (moduleName : List Char) (inc exc : File) (function : List Char)
    (names : List (List Char)) : Except Fail (List (List Char)) := do
  let includeRgx ← parseFunctionSetFile moduleName inc
  let excludeRgx ← parseFunctionSetFile moduleName exc
  let includeRgx ← if function ≠ [] then parseRegex function else .ok includeRgx
  let excludeRgx ← if function ≠ [] then parseRegex ['.', '*'] else .ok excludeRgx
  .ok (names.filter fun name =>
    if regexMatch includeRgx name then true
    else if regexMatch excludeRgx name then false
    else !(!exc.given && inc.given))

end Verif.Pass
