import Mathlib.Data.Rat.Floor
import Mathlib.Tactic.Linarith
import Mathlib.Tactic.NormNum

/-!
# Time and runs of a search

/repo/src/tools/ddebug/DD_exec_stat.py.  Times of the clock and of files are rational numbers of seconds (the code has `float`s).
-/

namespace Verif.Ddtool.Stat

/-- `int` of Python on a number: towards zero. -/
def trunc (x : ℚ) : ℤ := if 0 ≤ x then ⌊x⌋ else ⌈x⌉

/-- `terminate` (DD_exec_stat.py:10-12): the end is cut to seconds (:19), the start is not (:16). -/
def duration (start now : ℚ) : ℤ := trunc (⌊now⌋ - start)

/-- Days, hours, minutes and seconds of a time. -/
structure Parts where
  d : ℤ
  h : ℤ
  m : ℤ
  s : ℤ
deriving DecidableEq, Repr

/-- `printElapsed` (DD_exec_stat.py:21-28). -/
def parts (duration : ℤ) : Parts :=
  let s := duration.fmod 60
  let rm := duration.fdiv 60
  let m := rm.fmod 60
  let rh := rm.fdiv 60
  ⟨rh.fdiv 24, rh.fmod 24, m, s⟩

/-- The directory of a search: for each tested set the times of the files `dd.run*/dd.run.out` of its runs, and the links that
`configuration_found` makes to the sets found (DD_stoch.py:228-233, 239-242). -/
structure Dir where
  sets : List (String × List ℚ)
  links : List (String × String)

/-- The runs of a set. -/
def Dir.runs (d : Dir) (set : String) : List ℚ := ((d.sets.find? fun e => e.1 == set).map Prod.snd).getD []

/-- `symlink` (DD_stoch.py:167-170): a link of the same name is replaced. -/
def Dir.link (d : Dir) (set name : String) : Dir := { d with links := (name, set) :: d.links.filter fun l => l.1 != name }

/-- The files that `glob` finds (DD_exec_stat.py:36): `*` stands for sets and for links, which are followed. -/
def Dir.glob (d : Dir) : List ℚ := d.sets.flatMap Prod.snd ++ d.links.flatMap fun l => d.runs l.2

/-- `isNew` and `printNbRun` (DD_exec_stat.py:30-42): the runs since the start and all runs, from the times of their files. -/
def nbRun (start : ℚ) (d : Dir) : Nat × Nat := ((d.glob.filter fun t => start < t).length, d.glob.length)

end Verif.Ddtool.Stat
