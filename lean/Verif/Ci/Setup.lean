import Mathlib.Data.List.Basic

/-!
# `vfc_ci setup`

/repo/src/tools/ci/setup.py: the workflow is committed on the current branch, and a branch for the results is made, with a
README as its only file.

The repository is modelled as far as setup.py uses it: commits with their files and parents, branches, the index, the files of the
work tree, the branches of the remote `origin` and what is known of them.  The effects of the commands are those of git and of
GitPython: `is_dirty` does not look at untracked files by default, `index.commit` takes the commit of HEAD as parent when
`parent_commits` is `None` and makes a root commit when HEAD has none, `push` without refspec pushes the current branch to
its upstream of the same name and raises when the names differ (`push.default` is `simple`), and a push that the remote rejects
raises nothing.

Simplifications: HEAD is on a branch; nobody else changes the remote during the run; what is ignored does not change; the texts
of the templates and the answers of the user are a function of the names of the branches.
-/

namespace Verif.Ci.Setup

/-- Files and their contents. -/
abbrev Tree := List (String × String)

def Tree.get (t : Tree) (p : String) : Option String := (t.find? fun e => e.1 == p).map Prod.snd

def Tree.set (t : Tree) (p c : String) : Tree := (p, c) :: t.filter fun e => e.1 != p

/-- A commit; parents are positions in the list of commits. -/
structure Obj where
  tree : Tree
  parents : List Nat

structure Repo where
  objs : List Obj
  head : String
  branches : String → Option Nat
  index : Tree
  work : Tree
  ignored : String → Bool
  upstream : String → Option String
  /-- What is known of the branches of the remote. -/
  seen : String → Option Nat
  /-- The branches of the remote. -/
  remote : String → Option Nat

inductive Host where
  | github | gitlab

/-- How a run ends: stopped by an assertion, stopped by an exception of git, or finished. -/
inductive Result where
  | refused (r : Repo)
  | failed (r : Repo)
  | done (r : Repo)

def Result.repo : Result → Repo
  | refused r => r
  | failed r => r
  | done r => r

def update {α : Type} (f : String → α) (b : String) (x : α) : String → α := fun c => if c = b then x else f c

/-- The commit and its ancestors, found with `f` steps. -/
def anc (objs : List Obj) : Nat → Nat → List Nat
  | 0, _ => []
  | f + 1, n => n :: ((objs[n]?.map Obj.parents).getD []).flatMap (anc objs f)

def ancestors (objs : List Obj) (n : Nat) : List Nat := anc objs (n + 1) n

def treeOf (r : Repo) (n : Option Nat) : Tree := ((n.bind fun n => r.objs[n]?).map Obj.tree).getD []

/-- `fetch` (setup.py:100). -/
def fetch (r : Repo) : Repo := { r with seen := fun b => (r.remote b).or (r.seen b) }

/-- `is_dirty` (setup.py:103): the index against the commit, and the tracked files against the index. -/
def dirty (r : Repo) : Bool :=
  ((treeOf r (r.branches r.head) ++ r.index).any fun e => (treeOf r (r.branches r.head)).get e.1 != r.index.get e.1) ||
    r.index.any fun e => r.work.get e.1 != r.index.get e.1

/-- `iter_commits("a...b")` (setup.py:118-119). -/
def symmetric (r : Repo) (a b : Nat) : List Nat :=
  (ancestors r.objs a).filter (fun c => c ∉ ancestors r.objs b) ++ (ancestors r.objs b).filter fun c => c ∉ ancestors r.objs a

/-- The file of the workflow (setup.py:60, 86). -/
def Host.file : Host → String
  | .github => ".github/workflows/vfc_test_workflow.yml"
  | .gitlab => ".gitlab-ci.yml"

/-- A file is written (setup.py:43-44, 62-63, 87-88). -/
def write (r : Repo) (p c : String) : Repo := { r with work := r.work.set p c }

/-- `git add .` (setup.py:129). -/
def addAll (r : Repo) : Repo := { r with index := r.work.filter fun e => (r.index.get e.1).isSome || !r.ignored e.1 }

/-- `index.commit` (setup.py:130, 142-145). -/
def commit (r : Repo) : Repo :=
  { r with objs := r.objs ++ [⟨r.index, (r.branches r.head).toList⟩], branches := update r.branches r.head (some r.objs.length) }

/-- A push of a branch to the branch of the same name: the remote takes only descendants of what it has (setup.py:131, 146). -/
def push (r : Repo) (b : String) : Repo :=
  match r.branches b, r.remote b with
  | none, _ => r
  | some n, none => { r with remote := update r.remote b (some n), seen := update r.seen b (some n) }
  | some n, some m =>
    if m ∈ ancestors r.objs n then { r with remote := update r.remote b (some n), seen := update r.seen b (some n) } else r

/-- `git checkout --force` (setup.py:149). -/
def checkout (r : Repo) (b : String) : Repo :=
  { r with head := b, index := treeOf r (r.branches b)
           work := treeOf r (r.branches b) ++ r.work.filter fun e => (r.index.get e.1).isNone }

/-- The name of the branch of the results (setup.py:127). -/
def ciName (dev : String) : String := "vfc_ci_" ++ dev

/-- The second half: the branch of the results (setup.py:136-149). -/
def makeCi (readme : String → String → String) (dev : String) (r : Repo) : Result :=
  let r := { r with head := ciName dev }
  if r.index.isEmpty then .failed r
  else
    let r := write { r with index := [] } "README.md" (readme dev (ciName dev))
    let r := commit { r with index := [("README.md", readme dev (ciName dev))] }
    .done (checkout (push r (ciName dev)) dev)

/-- The first half, once the checks are passed: the workflow (setup.py:127-131). -/
def workflow (host : Host) (flow : String → String → String) (r : Repo) : Repo :=
  commit (addAll (write r host.file (flow r.head (ciName r.head))))

/-- `run` (setup.py:94-149). -/
def run (host : Host) (flow readme : String → String → String) (r : Repo) : Result :=
  let r := fetch r
  if dirty r then .refused r
  else
    match r.branches r.head, r.upstream r.head with
    | some tip, some up =>
      match r.seen up with
      | none => .refused r
      | some other =>
        if symmetric r tip other ≠ [] then .refused r
        else
          let r := workflow host flow r
          if up ≠ r.head then .failed r
          else makeCi readme r.head (push r r.head)
    | _, _ => .refused r

end Verif.Ci.Setup
