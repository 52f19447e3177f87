/-!
# The delta-debugging searches

Model of `src/tools/ddebug/DD.py` (the splitting, `interflop_dd_min` and
`interflop_dd_max`) and of `src/tools/ddebug/DD_stoch.py` (the verdict cache kept on
disk, `RDDMin`, `SRDDMin`, the dichotomy and `DRDDMin`).

A run of the program under test is random.  Each sample of a configuration has its own
directory `dd.run<i>` which is created once and kept, so the i-th sample of a
configuration happens at most once and its result is a fixed, unknown function
`sample : K → Nat → Bool`; all theorems quantify over it.

Simplifications: printing and the symbolic links made by `configuration_found` are left
out (its test is kept); `K` is the type of directory names, `name` stands for `md5Name`
(see `NameProps`).  Loops carry a fuel; `Res.fuel` is "still running".
-/

namespace Verif.Ddtool

/-- Result of a piece of Python: a value, the end of the process (`sys.exit` or an
uncaught exception), or still running when the fuel is used up. -/
inductive Res (α : Type) where
  | ok (a : α)
  | exit
  | fuel
  deriving DecidableEq, Repr

/-- Sequencing: exits and unfinished loops propagate. -/
def Res.bind {α β : Type} (x : Res α) (f : α → Res β) : Res β :=
  match x with
  | .ok a => f a
  | .exit => .exit
  | .fuel => .fuel

instance : Monad Res where
  pure := .ok
  bind := Res.bind

@[simp] theorem Res.ok_bind {α β : Type} (a : α) (f : α → Res β) :
    (Res.ok a >>= f) = f a := rfl
@[simp] theorem Res.exit_bind {α β : Type} (f : α → Res β) :
    ((Res.exit : Res α) >>= f) = .exit := rfl
@[simp] theorem Res.fuel_bind {α β : Type} (f : α → Res β) :
    ((Res.fuel : Res α) >>= f) = .fuel := rfl
@[simp] theorem Res.pure_eq {α : Type} (a : α) : (pure a : Res α) = .ok a := rfl

/-- `PASS` / `FAIL` (`DD.py:199-202`; `UNRESOLVED` is never returned by
`DD_stoch.py:546-559`). -/
inductive Verdict where
  | pass
  | fail
  deriving DecidableEq, Repr

section
variable {α : Type} [DecidableEq α]

/-- `__listminus`, `DD.py:225-236`; also the comprehension
`[delta for delta in deltas if delta not in conf]` of `DD_stoch.py`. -/
def listminus (c1 c2 : List α) : List α := c1.filter fun d => decide (d ∉ c2)

/-- `__listintersect`, `DD.py:238-249`. -/
def listintersect (c1 c2 : List α) : List α := c1.filter fun d => decide (d ∈ c2)

/-- `_split`, `DD.py:341-349`: `r` iterations left, at index `i`, from position
`start`. -/
def splitLoop (c : List α) (n : Nat) : Nat → Nat → Nat → List (List α)
  | 0, _, _ => []
  | r + 1, i, start =>
    let subset := (c.drop start).take ((c.length - start) / (n - i))
    subset :: splitLoop c n r (i + 1) (start + subset.length)

/-- `_split(c, n)`, `DD.py:341-349`. -/
def split (c : List α) (n : Nat) : List (List α) := splitLoop c n n 0 0

end

/-- One directory `dd.run<i+1>`: its index and what its file `returnVal` says
(`some true`: status 0), `none` when there is no such file. -/
abbrev Entry := Nat × Option Bool

/-- The directories on disk, per configuration directory. -/
abbrev Disk (K : Type) := K → List Entry

/-- Everything the searches get from outside. -/
structure Env (α K : Type) where
  /-- `md5Name`, `DD_stoch.py:152-155` -/
  name : List α → K
  /-- does the comparison of the i-th sample of a configuration return 0? -/
  sample : K → Nat → Bool
  /-- order in which `os.listdir` enumerates a directory -/
  ord : List Entry → List Entry
  /-- `config_.get_maxNbPROC()` is not `None` -/
  par : Bool
  /-- `config_.get_nbRUN()` -/
  nbRUN : Nat
  /-- `INTERFLOP_DD_UNSAFE` is in the environment -/
  unsafe_ : Bool

section
variable {α K : Type} [DecidableEq α] [DecidableEq K]

/-- The loop of `sampleToComputeToGetFailure`, `DD_stoch.py:97-102`: `none` is "a
failure is recorded"; reading a missing `returnVal` raises `FileNotFoundError`. -/
def scan : List Entry → List Nat → Res (Option (List Nat))
  | [], done => .ok (some done)
  | (_, none) :: _, _ => .exit
  | (_, some false) :: _, _ => .ok none
  | (i, some true) :: r, done => scan r (done ++ [i])

/-- Disk after adding directories to a configuration. -/
def Disk.add (d : Disk K) (k : K) (es : List Entry) : Disk K :=
  fun k' => if k' = k then d k ++ es else d k'

/-- `runSeq`, `DD_stoch.py:127-136`; `mkdir` raises `FileExistsError` when the directory
exists (`DD_stoch.py:62-63`). -/
def runSeq (e : Env α K) (k : K) : List Nat → Disk K → Res (Verdict × Disk K)
  | [], d => .ok (.pass, d)
  | i :: w, d =>
    if i ∈ (d k).map (·.1) then .exit
    else
      let d := d.add k [(i, some (e.sample k i))]
      if e.sample k i then runSeq e k w d else .ok (.fail, d)

/-- Second loop of `runPar`, `DD_stoch.py:143-147`: samples are compared in order up to
the first failing one; the others keep their directory without `returnVal`. -/
def parEntries (e : Env α K) (k : K) : List Nat → List Entry
  | [] => []
  | i :: w =>
    (i, some (e.sample k i)) ::
      (if e.sample k i then parEntries e k w else w.map fun j => (j, none))

/-- `runPar`, `DD_stoch.py:138-149`. -/
def runPar (e : Env α K) (k : K) (w : List Nat) (d : Disk K) : Res (Verdict × Disk K) :=
  if ∃ i ∈ w, i ∈ (d k).map (·.1) then .exit
  else .ok (if w.all (e.sample k) then .pass else .fail, d.add k (parEntries e k w))

/-- `_test(deltas, nbRun)`, `DD_stoch.py:546-559`, with `InterflopTask.run`
(`DD_stoch.py:107-125`) and `sampleToComputeToGetFailure` (`DD_stoch.py:90-105`). -/
def test (e : Env α K) (c : List α) (nbRun : Nat) (d : Disk K) : Res (Verdict × Disk K) :=
  let k := e.name c
  do
    let r ← scan (e.ord (d k)) []
    match r with
    | none => .ok (.fail, d)
    | some done =>
      let work := (List.range nbRun).filter fun x => decide (x ∉ done)
      if work = [] then .ok (.pass, d)
      else if e.par then runPar e k work d
      else runSeq e k work d

/-- "Check subsets", `DD.py:784-806`: the first chunk that fails. -/
def subsetsLoop (t : List α → Disk K → Res (Verdict × Disk K)) :
    List (List α) → Disk K → Res (Option (List α) × Disk K)
  | [], d => .ok (none, d)
  | s :: r, d => do
    let (v, d) ← t s d
    if v = .fail then .ok (some s, d) else subsetsLoop t r d

/-- "Check complements", `DD.py:809-835`: `js` are the values of `j` left; answers the
index `i` of the removed chunk and the complement when one fails. -/
def complLoop (t : List α → Disk K → Res (Verdict × Disk K)) (c : List α)
    (cs : List (List α)) (n off : Nat) :
    List Nat → Disk K → Res (Option (Nat × List α) × Disk K)
  | [], d => .ok (none, d)
  | j :: js, d => do
    let i := (j + off) % n
    let cbar := listminus c (cs.getD i [])
    let (v, d) ← t cbar d
    if v = .fail then .ok (some (i, cbar), d) else complLoop t c cs n off js d

/-- The loop of `interflop_dd_min`, `DD.py:751-849`. `first` is `run == 1`. -/
def ddminLoop (e : Env α K) (nbRun : Nat) :
    Nat → Bool → List α → Nat → Nat → Disk K → Res (List α × Disk K)
  | 0, _, _, _, _, _ => .fuel
  | f + 1, first, c, n, off, d => do
    let (tc, d) ← test e c nbRun d
    if tc = .pass ∧ (first ∨ e.unsafe_ = false) then .exit
    else if c.length < n then .ok (c, d)
    else
      let cs := split c n
      let (s, d) ← subsetsLoop (fun c => test e c nbRun) cs d
      match s with
      | some sub => ddminLoop e nbRun f false sub 2 0 d
      | none =>
        let (b, d) ← complLoop (fun c => test e c nbRun) c cs n off (List.range n) d
        match b with
        | some (i, cbar) => ddminLoop e nbRun f false cbar (n - 1) i d
        | none =>
          if c.length ≤ n then .ok (c, d)
          else
            let n' := min c.length (n * 2)
            ddminLoop e nbRun f false c n' (off * n' / n) d

/-- `interflop_dd_min(c, nbRun)`, `DD.py:737-849`. -/
def ddmin (e : Env α K) (fuel : Nat) (c : List α) (nbRun : Nat) (d : Disk K) :
    Res (List α × Disk K) := do
  let (v, d) ← test e [] nbRun d
  if v = .fail then .exit
  else ddminLoop e nbRun fuel true c 2 0 d

/-- `test_mix` with `maximize` only, `DD.py:474-499`: the verdict is the opposite of the
one of the complement in `cc`, the set is complemented twice. -/
def testMix (e : Env α K) (cc : List α) (csub : List α) (d : Disk K) :
    Res (Verdict × List α × Disk K) := do
  let csubbar := listminus cc csub
  let (tbar, d) ← test e csubbar e.nbRUN d
  let csub := listminus cc csubbar
  .ok (match tbar with | .pass => .fail | .fail => .pass, csub, d)

/-- "Check complements" of `interflop_dd_max`, `DD.py:691-721`. -/
def maxLoop (e : Env α K) (cc c : List α) (cs : List (List α)) (n off : Nat) :
    List Nat → Disk K → Res (Option (Nat × List α) × Disk K)
  | [], d => .ok (none, d)
  | j :: js, d => do
    let i := (j + off) % n
    let (v, cbar, d) ← testMix e cc (listminus c (cs.getD i [])) d
    if v = .fail then .ok (some (i, cbar), d) else maxLoop e cc c cs n off js d

/-- The loop of `interflop_dd_max`, `DD.py:660-735`.  The update of `cs[i]` after the
test (`DD.py:701-703`) only concerns chunks that are not looked at again. -/
def ddmaxLoop (e : Env α K) (cc : List α) :
    Nat → Bool → List α → Nat → Nat → Disk K → Res (List α × Disk K)
  | 0, _, _, _, _, _ => .fuel
  | f + 1, first, c, n, off, d => do
    let (tc, d) ← test e c e.nbRUN d
    if tc = .pass ∧ first then .exit
    else if c.length < n then .ok (c, d)
    else
      let cs := split c n
      let (b, d) ← maxLoop e cc c cs n off (List.range n) d
      match b with
      | some (i, cbar) => ddmaxLoop e cc f false (listintersect c cbar) (n - 1) i d
      | none =>
        if c.length ≤ n then .ok (c, d)
        else
          let n' := min c.length (n * 2)
          ddmaxLoop e cc f false c n' (off * n' / n) d

/-- `DDMax`, `DD_stoch.py:269-275` with `interflop_dd_max`, `DD.py:641-735`: the deltas
that can be kept together. -/
def ddmax (e : Env α K) (fuel : Nat) (deltas : List α) (d : Disk K) :
    Res (List α × Disk K) := do
  let (v, d) ← test e [] e.nbRUN d
  if v = .fail then .exit
  else
    let (res, d) ← ddmaxLoop e deltas fuel true deltas 2 0 d
    let cmp := listminus deltas res
    let (_, d) ← test e cmp e.nbRUN d
    let (_, d) ← test e res e.nbRUN d
    .ok (cmp, d)

/-- The loop of `RDDMin`, `DD_stoch.py:283-294`; `v` is `testResult`. -/
def rddminLoop (e : Env α K) (fuel nbRun : Nat) :
    Nat → Verdict → List α → Disk K → Res (List (List α) × Disk K)
  | 0, _, _, _ => .fuel
  | f + 1, v, deltas, d =>
    if v = .pass then .ok ([], d)
    else do
      let (conf, d) ← ddmin e fuel deltas nbRun d
      let (_, d) ← test e conf e.nbRUN d
      let deltas := listminus deltas conf
      let (v, d) ← test e deltas nbRun d
      let (rest, d) ← rddminLoop e fuel nbRun f v deltas d
      .ok (conf :: rest, d)

/-- `RDDMin(deltas, nbRun)`, `DD_stoch.py:277-294`. -/
def rddmin (e : Env α K) (fuel : Nat) (deltas : List α) (nbRun : Nat) (d : Disk K) :
    Res (List (List α) × Disk K) := do
  let (v, d) ← test e deltas e.nbRUN d
  if v = .pass then .exit
  else rddminLoop e fuel nbRun fuel v deltas d

/-- `for runIncValue in [x for x in runTab if x > run]`, `DD_stoch.py:470-473`. -/
def refine (e : Env α K) (fuel : Nat) : List Nat → List α → Disk K → Res (List α × Disk K)
  | [], conf, d => .ok (conf, d)
  | x :: xs, conf, d => do
    let (conf, d) ← ddmin e fuel conf x d
    if conf.length = 1 then .ok (conf, d) else refine e fuel xs conf d

/-- The inner loop of `SRDDMin`, `DD_stoch.py:465-483`: the sets found and the deltas
left. -/
def srddLoop (e : Env α K) (fuel : Nat) (runTab : List Nat) (run nbRun : Nat) :
    Nat → Verdict → List α → Disk K → Res ((List (List α) × List α) × Disk K)
  | 0, _, _, _ => .fuel
  | f + 1, v, deltas, d =>
    if v = .pass then .ok (([], deltas), d)
    else do
      let (conf, d) ← ddmin e fuel deltas run d
      let (conf, d) ←
        if conf.length ≠ 1 then
          refine e fuel (runTab.filter fun x => decide (run < x)) conf d
        else .ok (conf, d)
      let (_, d) ← test e conf e.nbRUN d
      let deltas := listminus deltas conf
      let (v, d) ← test e deltas nbRun d
      let ((rest, left), d) ← srddLoop e fuel runTab run nbRun f v deltas d
      .ok ((conf :: rest, left), d)

/-- The outer loop of `SRDDMin`, `DD_stoch.py:461-483`. -/
def srddRuns (e : Env α K) (fuel : Nat) (runTab : List Nat) (nbRun : Nat) :
    List Nat → List α → Disk K → Res ((List (List α) × List α) × Disk K)
  | [], deltas, d => .ok (([], deltas), d)
  | run :: runs, deltas, d => do
    let (v, d) ← test e deltas run d
    let ((found, deltas), d) ← srddLoop e fuel runTab run nbRun fuel v deltas d
    let ((more, deltas), d) ← srddRuns e fuel runTab nbRun runs deltas d
    .ok ((found ++ more, deltas), d)

/-- `SRDDMin(deltas, runTab)`, `DD_stoch.py:449-485`; `runTab[-1]` of an empty table
raises `IndexError`. -/
def srddmin (e : Env α K) (fuel : Nat) (deltas : List α) (runTab : List Nat) (d : Disk K) :
    Res (List (List α) × Disk K) :=
  match runTab.getLast? with
  | none => .exit
  | some nbRun => do
    let (v, d) ← test e deltas nbRun d
    if v = .pass then .exit
    else
      let ((found, _), d) ← srddRuns e fuel runTab nbRun runTab deltas d
      .ok (found, d)

/-- What `treatFailedCandidat` produces: sets found, a chunk to put in front of the failed
list, chunks to put in front of the unknown list. -/
structure Treat (α : Type) where
  res : List (List α)
  failed : List (List α)
  unknown : List (List α)

/-- The loop of `treatFailedCandidat`, `DD_stoch.py:321-344`; `cut` is `cutAbleStatus`. -/
def treatLoop (e : Env α K) (nbRun : Nat) (candidat : List α) :
    List (List α) → Bool → Disk K → Res (Treat α × Disk K)
  | [], cut, d => .ok (⟨if cut then [] else [candidat], [], []⟩, d)
  | ci :: tail, cut, d => do
    let (v, d) ← test e ci nbRun d
    if v = .fail then
      if ci.length = 1 then
        let (_, d) ← test e ci e.nbRUN d
        let (t, d) ← treatLoop e nbRun candidat tail true d
        .ok (⟨ci :: t.res, t.failed, t.unknown⟩, d)
      else .ok (⟨[], [ci], tail⟩, d)
    else treatLoop e nbRun candidat tail cut d

/-- `treatFailedCandidat`, `DD_stoch.py:312-344`; Python's `range` of a negative
granularity is empty, as for 0. -/
def treatFailed (e : Env α K) (nbRun : Nat) (granularity : Int) (candidat : List α)
    (d : Disk K) : Res (Treat α × Disk K) :=
  treatLoop e nbRun candidat (split candidat (min granularity candidat.length).toNat) false d

/-- The main loop of `splitDeltas`, `DD_stoch.py:356-376`; `len` is `len(deltas)`. -/
def splitDLoop (e : Env α K) (nbRun : Nat) (granularity : Int) (len : Nat) :
    Nat → List (List α) → List (List α) → Disk K → Res (List (List α) × Disk K)
  | 0, _, _, _ => .fuel
  | _ + 1, [], [], d => .ok ([], d)
  | f + 1, [], u :: us, d => do
    let (v, d) ← test e u nbRun d
    splitDLoop e nbRun granularity len f (if v = .fail then [u] else []) us d
  | f + 1, c :: cs, us, d => do
    let unknownStatusSize := match us with | [] => len | u :: _ => u.length
    if c.length ≤ unknownStatusSize then
      let (t, d) ← treatFailed e nbRun granularity c d
      let (rest, d) ←
        splitDLoop e nbRun granularity len f (t.failed ++ cs) (t.unknown ++ us) d
      .ok (t.res ++ rest, d)
    else
      match us with
      | [] => .exit
      | u :: us =>
        let (v, d) ← test e u nbRun d
        splitDLoop e nbRun granularity len f (if v = .fail then u :: c :: cs else c :: cs)
          us d

/-- `splitDeltas(deltas, nbRun, granularity)`, `DD_stoch.py:296-377`. -/
def splitDeltas (e : Env α K) (fuel : Nat) (deltas : List α) (nbRun : Nat)
    (granularity : Int) (d : Disk K) : Res (List (List α) × Disk K) := do
  let (v, d) ← test e deltas e.nbRUN d
  if v = .pass then .ok ([], d)
  else splitDLoop e nbRun granularity deltas.length fuel [deltas] [] d

/-- `for candidat in currentSplit`, `DD_stoch.py:389-395`. -/
def resplit (e : Env α K) (fuel run : Nat) (granularity : Int) :
    List (List α) → Disk K → Res (List (List α) × Disk K)
  | [], d => .ok ([], d)
  | c :: cs, d => do
    let (r, d) ←
      if c.length = 1 then .ok ([c], d) else splitDeltas e fuel c run granularity d
    let (rest, d) ← resplit e fuel run granularity cs d
    .ok (r ++ rest, d)

/-- `for run in runTab`, `DD_stoch.py:387-409`. -/
def ssplitLoop (e : Env α K) (fuel : Nat) (granularity : Int) (deltas : List α) :
    List Nat → List (List α) → Disk K → Res (List (List α) × Disk K)
  | [], cur, d => .ok (cur, d)
  | run :: runs, cur, d => do
    let (next, d) ← resplit e fuel run granularity cur d
    let remain := listminus deltas next.flatten
    let (more, d) ← splitDeltas e fuel remain run granularity d
    ssplitLoop e fuel granularity deltas runs (next ++ more) d

/-- `SsplitDeltas(deltas, runTab, granularity)`, `DD_stoch.py:379-411`. -/
def ssplitDeltas (e : Env α K) (fuel : Nat) (deltas : List α) (runTab : List Nat)
    (granularity : Int) (d : Disk K) : Res (List (List α) × Disk K) :=
  ssplitLoop e fuel granularity deltas runTab [deltas] d

/-- `for candidat in candidats`, `DD_stoch.py:428-439`: the sets found and the deltas
left. -/
def analyse (e : Env α K) (fuel : Nat) (runTab : List Nat) :
    List (List α) → List α → Disk K → Res ((List (List α) × List α) × Disk K)
  | [], deltas, d => .ok (([], deltas), d)
  | c :: cs, deltas, d => do
    let (found, d) ← if c.length = 1 then .ok ([c], d) else srddmin e fuel c runTab d
    let deltas := found.foldl listminus deltas
    let ((rest, left), d) ← analyse e fuel runTab cs deltas d
    .ok ((found ++ rest, left), d)

/-- `DRDDMin(deltas, SrunTab, dicRunTab, granularity)`, `DD_stoch.py:413-447`. -/
def drddmin (e : Env α K) (fuel : Nat) (deltas : List α) (sRunTab dicRunTab : List Nat)
    (granularity : Int) (d : Disk K) : Res (List (List α) × Disk K) :=
  match sRunTab.getLast? with
  | none => .exit
  | some nbRun => do
    let (v, d) ← test e deltas nbRun d
    if v = .pass then .exit
    else
      let (cands, d) ← ssplitDeltas e fuel deltas dicRunTab granularity d
      let ((res, left), d) ← analyse e fuel sRunTab cands deltas d
      let (v, d) ← test e left nbRun d
      if v = .pass then .ok (res, d)
      else
        let (more, d) ← srddmin e fuel left sRunTab d
        .ok (res ++ more, d)

end

end Verif.Ddtool
