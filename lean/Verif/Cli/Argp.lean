import Verif.Base.Outcome

/-!
# The command lines of the backends

The backends declare tables of options and a function that handles one option, and leave the words after their name in `VFC_BACKENDS` to
`argp_parse` of the C library (interflop_mca.c:889-899 and the same in the others; the handler is set in vfcwrapper/main.c.in:372).

This file is `argp_parse` with flags 0 and no place for an end index, as the GNU C library documents and implements it: words are
given to `getopt_long`, which takes options in the order they come and leaves all other words for the end, unless the environment variable
`POSIXLY_CORRECT` is set; a word that is no option is given to the function of the backend with the key `ARGP_KEY_ARG`, which is 0.

Simplified: a process that is ended by `argp_parse` is `.exit` whether for an error (status 64) or for `--help`; the seconds `--HANG` sleeps,
and the name `--program-name` sets, change nothing; the program defines no `argp_program_version`.
-/

namespace Verif.Cli
open Verif

abbrev Word := List Char

/-- What follows an option: `arg` and `OPTION_ARG_OPTIONAL` of `struct argp_option`. -/
inductive Has | none | required | optional
deriving DecidableEq, Repr

/-- `struct argp_option`: name, key, argument. -/
structure Opt where
  name : Word
  key : Int
  has : Has
deriving DecidableEq, Repr

/-- An option and the parser, of those combined, that handles it. -/
structure Entry where
  group : Nat
  opt : Opt
deriving DecidableEq, Repr

/-- `struct argp`: the options and the function that handles them; `none` is `ARGP_ERR_UNKNOWN`. -/
structure Group (C : Type) where
  opts : List Opt
  parse : Int → Option Word → C → Option (Outcome C)

/-- `ARGP_KEY_ARG`. -/
def keyArg : Int := 0

/-- The options `argp_parse` adds: `--help` (`-?`), `--program-name`, `--usage`, `--HANG`. -/
def defaultOpts : List Opt :=
  [⟨"help".toList, 63, .none⟩, ⟨"program-name".toList, -2, .required⟩, ⟨"usage".toList, -3, .none⟩, ⟨"HANG".toList, -4, .optional⟩]

def entriesFrom : Nat → List (List Opt) → List Entry
  | _, [] => []
  | i, os :: t => os.map (⟨i, ·⟩) ++ entriesFrom (i + 1) t

/-- All options, those of the parsers first, each with the number of its parser. -/
def table (opts : List (List Opt)) : List Entry := entriesFrom 0 (opts ++ [defaultOpts])

/-- Keys that are printing characters are short options as well. -/
def isShort (k : Int) : Bool := decide (32 ≤ k ∧ k ≤ 126)

def findShort (t : List Entry) (c : Char) : Option Entry := t.find? fun e => isShort e.opt.key && e.opt.key == (c.toNat : Int)

/-- The option of a long name: the one of that name, or the only one whose name begins so. -/
def findLong (t : List Entry) (n : Word) : Option Entry :=
  match t.find? fun e => e.opt.name == n with
  | some e => some e
  | none =>
    match t.filter fun e => n.isPrefixOf e.opt.name with
    | [] => none
    | e :: es => if es.all fun e' => e'.opt.has == e.opt.has && e'.group == e.group && e'.opt.key == e.opt.key then some e else none

/-- What is found on the command line. -/
inductive Ev
  | opt (e : Entry) (arg : Option Word)
  | word (w : Word)
  | bad
deriving DecidableEq, Repr

/-- The letters of one word; the words that remain, none after an error. -/
def short (t : List Entry) : Word → List Word → List Ev × Option (List Word)
  | [], ws => ([], some ws)
  | c :: cs, ws =>
    match findShort t c with
    | none => ([.bad], none)
    | some e =>
      match e.opt.has with
      | .none => (.opt e none :: (short t cs ws).1, (short t cs ws).2)
      | .optional => ([.opt e (if cs = [] then none else some cs)], some ws)
      | .required =>
        if cs ≠ [] then ([.opt e (some cs)], some ws)
        else match ws with
          | [] => ([.bad], none)
          | w :: ws => ([.opt e (some w)], some ws)

/-- A word that begins with two hyphens, without them. -/
def long (t : List Entry) (w : Word) (ws : List Word) : List Ev × Option (List Word) :=
  match findLong t (w.takeWhile (· != '=')) with
  | none => ([.bad], none)
  | some e =>
    match e.opt.has, w.dropWhile (· != '=') with
    | .none, [] => ([.opt e none], some ws)
    | .none, _ :: _ => ([.bad], none)
    | .optional, [] => ([.opt e none], some ws)
    | .optional, _ :: v => ([.opt e (some v)], some ws)
    | .required, _ :: v => ([.opt e (some v)], some ws)
    | .required, [] =>
      match ws with
      | [] => ([.bad], none)
      | w :: ws => ([.opt e (some w)], some ws)

/-- Words that `getopt` takes for no options. -/
def isPlain : Word → Bool
  | '-' :: _ :: _ => false
  | _ => true

/-- `getopt_long` called until the end, after `skipped`; `fuel` is above the number of words. -/
def scan (posix : Bool) (t : List Entry) : Nat → List Word → List Word → List Ev
  | 0, _, _ => []
  | _ + 1, [], skipped => skipped.map .word
  | n + 1, w :: ws, skipped =>
    if w = ['-', '-'] then (skipped ++ ws).map .word
    else if isPlain w then
      if posix then (skipped ++ w :: ws).map .word else scan posix t n ws (skipped ++ [w])
    else
      let r := if w.take 2 = ['-', '-'] then long t (w.drop 2) ws else short t (w.drop 1) ws
      match r.2 with
      | none => r.1
      | some ws' => r.1 ++ scan posix t n ws' skipped

/-- A word that is no option: each parser is asked in turn; the one that adds `--help` takes none, and then there are too many arguments.
(A parser may also take all words at once under the key `ARGP_KEY_ARGS`; those of the backends do not know that key.) -/
def word {C : Type} (w : Word) (c : C) : List (Group C) → Outcome C
  | [] => .exit
  | g :: gs =>
    match g.parse keyArg (some w) c with
    | some r => r
    | none => word w c gs

/-- What is done for what is found: `--help` and `--usage` end the process; an option its parser does not know is an error. -/
def handle {C : Type} (gs : List (Group C)) (c : C) : Ev → Outcome C
  | .bad => .exit
  | .word w => word w c gs
  | .opt e a =>
    match gs[e.group]? with
    | some g => (g.parse e.opt.key a c).getD .exit
    | none => if e.opt.key = 63 ∨ e.opt.key = -3 then .exit else .ok c

def handleAll {C : Type} (gs : List (Group C)) : List Ev → C → Outcome C
  | [], c => .ok c
  | e :: es, c => handle gs c e >>= handleAll gs es

/-- `argp_parse` on the words after the name. -/
def argpParse {C : Type} (posix : Bool) (gs : List (Group C)) (ws : List Word) (c : C) : Outcome C :=
  handleAll gs (scan posix (table (gs.map Group.opts)) (ws.length + 1) ws []) c

end Verif.Cli
