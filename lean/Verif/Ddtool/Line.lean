import Verif.Ddtool.Config
import Verif.Ddtool.CacheProps
import Verif.Wrapper.Ddebug
import Mathlib.Data.List.Sublists

/-!
# `vfc_ddebug`, from the reference run to the sets found

`src/tools/ddebug/main.py` and the parts of `src/tools/ddebug/DD_stoch.py` that exchange files with the program: the program runs
once to list its operations, one line each (`VFC_DDEBUG_GEN`); the searches of `Verif.Ddtool.Model` work on these lines; each
configuration is a file of lines, which the wrapper of the program reads (`VFC_DDEBUG_INCLUDE`, `Verif.Wrapper.Ddebug`).

Simplifications: the program is deterministic but for its backends, and is the same, at the same addresses, in all runs (main.py:36-43);
the script runs it once, and stops it after a number of operations, which may be any; texts contain no carriage returns, so that
Python's `readlines` cuts at newlines only; the searches run their samples in sequence.
-/

namespace Verif.Ddtool
open Verif Verif.Wrapper

abbrev Str := List Char

/-! ## Programs -/

/-- A program as its wrapper sees it: in a state it ends with an output, or does an operation called with a return address and
continues with the result. -/
abbrev Machine (τ O V Out : Type) := τ → Out ⊕ (Nat × O × (V → τ))

/-- How a run ends: with an output, refused by the wrapper, or stopped by the script. -/
inductive End (Out : Type) where
  | out (o : Out)
  | error
  | cut
deriving DecidableEq

section
variable {τ O V Out G : Type}

/-- A run of at most `n` operations with the filters of the wrapper (src/vfcwrapper/main.c.in:565-615): the backends, of state `G`,
do the operations the filters leave to them.  A table that loops is stopped by the script. -/
def execDD (P : Machine τ O V Out) (native : O → V) (back : O → G → V × G) : Nat → DD → τ → G → End Out × DD
  | 0, d, _, _ => (.cut, d)
  | n + 1, d, s, g =>
    match P s with
    | .inl o => (.out o, d)
    | .inr (r, o, k) =>
      match d.step r with
      | none => (.cut, d)
      | some (true, d) => execDD P native back n d (k (native o)) g
      | some (false, d) => execDD P native back n d (k (back o g).1) (back o g).2

/-- The process with environment `e`: initialisation, and the run. -/
def process (P : Machine τ O V Out) (native : O → V) (back : O → G → V × G) (n : Nat) (e : DDEnv) (s : τ) (g : G) :
    End Out × Option DD :=
  match ddInit e with
  | .ok (some d) => ((execDD P native back n d s g).1, some (execDD P native back n d s g).2)
  | .ok none => (.cut, none)
  | _ => (.error, none)
end

/-! ## Files -/

/-- `readlines()`. -/
def lines : Str → List Str
  | [] => []
  | c :: t =>
    if c = '\n' then ['\n'] :: lines t
    else match lines t with
      | [] => [[c]]
      | l :: r => (c :: l) :: r

/-- The lines of a file that are not there yet (DD_stoch.py:203-207). -/
def addLines (m : List Str) (f : Str) : List Str := (lines f).foldl (fun m l => if l ∈ m then m else m ++ [l]) m

/-- `mergeList` (DD_stoch.py:189-210) and `getDelta0` (DD_stoch.py:524-526), on the files `dd.line.*` in the order of `os.listdir`. -/
def delta0 (files : List Str) : Res (List Str) :=
  match files with
  | [] => .exit
  | f :: r => .ok (lines (r.foldl addLines (lines f)).flatten)

/-- The file `dd.line.%%p` after the processes of the reference run have written their texts, in order: the variable
(main.py:13-17) is not formatted by Python and the name is used as it is (main.c.in:168, 541), so that there is one file, which is
not truncated. -/
def genFile (texts : List Str) : Str := texts.foldl overwrite []

/-- `excludes.remove(d)` for `d` in the deltas (DD_stoch.py:540-541), which raises an exception for a line that is not there. -/
def removeAll : List Str → List Str → Res (List Str)
  | ex, [] => .ok ex
  | ex, d :: ds => if d ∈ ex then removeAll (ex.erase d) ds else .exit

/-- `genExcludeIncludeFile` (DD_stoch.py:528-544): the two files of a configuration. -/
def genFiles (all deltas : List Str) : Res (Str × Str) := do
  let ex ← removeAll all deltas
  .ok (deltas.flatten, ex.flatten)

/-! ## The tool -/

/-- What the tool is given: the program, where it starts, its native operations, the backends of the user and the IEEE backend,
the number of operations after which it is stopped, `addr2line`, the comparison script on the outputs of the reference and of the
sample, md5, and the state of the backends at the start of each run. -/
structure Tool (τ O V Out G K : Type) where
  prog : Machine τ O V Out
  init : τ
  native : O → V
  back : O → G → V × G
  ieee : O → G → V × G
  stop : Nat
  width : Nat → Nat
  desc : Nat → Str
  compare : Out → End Out → Bool
  md5 : Str → K
  refSeed : G
  seed : K → Nat → G

variable {τ O V Out G K : Type} [DecidableEq K]

/-- The reference run (DD_stoch.py:518-522, main.py:13-17): its output and the file it generates as it ends
(main.c.in:195-207). -/
def Tool.reference (t : Tool τ O V Out G K) : Res (Out × Str) :=
  match process t.prog t.native t.ieee t.stop ⟨none, none, true⟩ t.init t.refSeed with
  | (.out o, some d) => .ok (o, genFile [genText t.width t.desc d.must])
  | _ => .exit

/-- A sample run with an include file (main.py:25-30, DD_stoch.py:68-73). -/
def Tool.sampleRun (t : Tool τ O V Out G K) (include_ : Str) (g : G) : End Out :=
  (process t.prog t.native t.back t.stop ⟨none, some (some include_), false⟩ t.init g).1

/-- `md5Name` (DD_stoch.py:152-155). -/
def Tool.name (t : Tool τ O V Out G K) (c : List Str) : K := t.md5 (hashed c)

/-- What the comparison says of sample `i` of the configuration whose directory is `k` (DD_stoch.py:75-88): the first configuration
of that name wrote the include file (DD_stoch.py:550-554). -/
def Tool.sample (t : Tool τ O V Out G K) (ref : Out) (deltas : List Str) (k : K) (i : Nat) : Bool :=
  match deltas.sublists.find? fun c => decide (t.name c = k) with
  | some c => t.compare ref (t.sampleRun c.flatten (t.seed k i))
  | none => true

/-- The searches of `run` (DD_stoch.py:244-267), with the test of what they leave (`rddmin-cmp`). -/
def runSearch {α : Type} [DecidableEq α] (e : Env α K) (fuel : Nat) (s : Search) (sTab dTab : List Nat) (g : Int) (deltas : List α)
    (d : Disk K) : Res (List (List α) × Disk K) :=
  let finish (r : List (List α) × Disk K) : Res (List (List α) × Disk K) :=
    (test e (listminus deltas r.1.flatten) e.nbRUN r.2).bind fun x => .ok (r.1, x.2)
  match s with
  | .rddmin => (rddmin e fuel deltas e.nbRUN d).bind finish
  | .srddmin => (srddmin e fuel deltas sTab d).bind finish
  | .drddmin => (drddmin e fuel deltas sTab dTab g d).bind finish
  | .ddmax => (ddmax e fuel deltas d).bind fun r => .ok ([r.1], r.2)

/-- The environment of the searches. -/
def Tool.env (t : Tool τ O V Out G K) (nbRUN : Nat) (ord : List Entry → List Entry) (unsafe_ : Bool) (ref : Out) (deltas : List Str) :
    Env Str K :=
  ⟨t.name, t.sample ref deltas, ord, false, nbRUN, unsafe_⟩

/-- `main` (main.py:46-52): the constructor (DD_stoch.py:174-187) with `checkReference` (DD_stoch.py:212-226), and the search. -/
def Tool.main (t : Tool τ O V Out G K) (nbRUN : Nat) (ord : List Entry → List Entry) (unsafe_ : Bool) (fuel : Nat) (s : Search)
    (sTab dTab : List Nat) (g : Int) (d : Disk K) : Res (List (List Str) × Disk K) := do
  let (ref, file) ← t.reference
  let deltas ← delta0 [file]
  if t.compare ref (.out ref) then runSearch (t.env nbRUN ord unsafe_ ref deltas) fuel s sTab dTab g deltas d
  else .exit

end Verif.Ddtool
