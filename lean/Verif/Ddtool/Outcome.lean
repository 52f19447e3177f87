import Verif.Ddtool.Model

/-!
# The outcome cache and the general searches of `DD.py`

Model of the parts of `src/tools/ddebug/DD.py` that are not specific to Verificarlo: the
tree of outcomes `OutcomeCache` (lines 50-128), `test` with its three uses of that tree
(289-321), `test_and_resolve` (391-432), `test_mix` (474-499), `ddgen` with `_dd`
(503-639) and `dddiff` with `_dddiff` (862-1023).

Simplifications: printing is left out; `_resolve` is the stub of `DD.py:384-387` that
returns `None`, which no class of the repository overrides.  An uncaught exception is
`Res.exit`.
-/

namespace Verif.Ddtool

/-- The three outcomes of a test, `DD.py:199-202`.  They are non-empty strings, so true
in a condition. -/
inductive Out where
  | pass
  | fail
  | unres
  deriving DecidableEq, Repr

/-! ## The tree of outcomes -/

mutual
/-- A node `OutcomeCache`, `DD.py:65-67`: `result` (`None` or an outcome) and the
dictionary `tail`. -/
inductive Trie (α : Type) where
  | node (result : Option Out) (tail : Forest α)
/-- A dictionary from deltas to nodes, in the order of insertion. -/
inductive Forest (α : Type) where
  | nil
  | cons (k : α) (t : Trie α) (rest : Forest α)
end

/-- `OutcomeCache()`, `DD.py:65-67`. -/
def Trie.empty {α : Type} : Trie α := .node none .nil

section
variable {α : Type} [DecidableEq α]

/-- `p.tail[k]`, `none` when `k not in p.tail`. -/
def Forest.get? (k : α) : Forest α → Option (Trie α)
  | .nil => none
  | .cons k' t r => if k' = k then some t else r.get? k

/-- `p.tail[k] = t`: in place when the key is there, at the end otherwise. -/
def Forest.set (k : α) (t : Trie α) : Forest α → Forest α
  | .nil => .cons k t .nil
  | .cons k' t' r => if k' = k then .cons k' t r else .cons k' t' (r.set k t)

/-- The keys of the dictionary, in order. -/
def Forest.keys : Forest α → List α
  | .nil => []
  | .cons k _ r => k :: r.keys

/-- `add(c, result)`, `DD.py:69-80`.  The sorted copy `cs` made at lines 71-72 is not
used: the path is `c` as it stands. -/
def Trie.add : List α → Out → Trie α → Trie α
  | [], v, .node _ tl => .node (some v) tl
  | k :: c, v, .node r tl => .node r (tl.set k (Trie.add c v ((tl.get? k).getD .empty)))

/-- `lookup(c)`, `DD.py:82-90`. -/
def Trie.lookup : List α → Trie α → Option Out
  | [], .node r _ => r
  | k :: c, .node _ tl =>
    match tl.get? k with
    | none => none
    | some t => t.lookup c

/-- `lookup_subset(c)`, `DD.py:120-128`: go down wherever possible. -/
def Trie.lookupSubset : List α → Trie α → Option Out
  | [], .node r _ => r
  | k :: c, .node r tl =>
    match tl.get? k with
    | none => Trie.lookupSubset c (.node r tl)
    | some t => Trie.lookupSubset c t

/-- `K0`, `DD.py:109-113`: the largest key that is at most `x`; `le` is the order of the
deltas (`k > k0` is `¬ k ≤ k0`). -/
def largest (le : α → α → Bool) (x : α) : List α → Option α → Option α
  | [], k0 => k0
  | k :: ks, k0 =>
    if (match k0 with | none => true | some m => !le k m) && le k x then
      largest le x ks (some k)
    else largest le x ks k0

theorem Forest.get?_lt {k : α} : ∀ {f : Forest α} {t : Trie α}, f.get? k = some t →
    sizeOf t < sizeOf f
  | .nil, _, h => by simp [Forest.get?] at h
  | .cons k' t' r, t, h => by
    unfold Forest.get? at h
    split at h
    · cases h; simp; omega
    · have := Forest.get?_lt h; simp; omega

/-- `lookup_superset(c, start)`, `DD.py:92-118`; the list is `c[start:]`.  Line 102
indexes the view `self.tail.keys()`, which raises `TypeError` in Python 3: that is
`Res.exit`. -/
def Trie.lookupSuperset (le : α → α → Bool) (c : List α) (t : Trie α) : Res (Option Out) :=
  match t, c with
  | .node r tl, [] =>
    match r, tl with
    | some v, _ => .ok (some v)
    | none, .cons _ _ _ => .exit
    | none, .nil => .ok none
  | .node _ tl, x :: c =>
    match _h : tl.get? x with
    | some t => t.lookupSuperset le c
    | none =>
      match largest le x tl.keys none with
      | none => .ok none
      | some k0 =>
        match _h0 : tl.get? k0 with
        | some t => t.lookupSuperset le (x :: c)
        | none => .ok none
termination_by sizeOf t
decreasing_by
  · have := Forest.get?_lt _h; simp; omega
  · have := Forest.get?_lt _h0; simp; omega

/-! ## `test` -/

/-- The settings that `test` reads, `DD.py:217-219`. -/
structure Settings where
  /-- `self.cache_outcomes` -/
  cache : Bool
  /-- `self.monotony` -/
  monotony : Bool

/-- State of an object `DD`: the tree, and the list of configurations given to `_test` so
far. -/
structure Obj (α : Type) where
  tree : Trie α
  runs : List (List α)

/-- `DD()`, `DD.py:214-222`. -/
def Obj.fresh : Obj α := ⟨.empty, []⟩

/-- `self._test(c)` for a test with the outcome `f c`: the call is recorded. -/
def Obj.run (f : List α → Out) (c : List α) (o : Obj α) : Res (Out × Obj α) :=
  .ok (f c, { o with runs := o.runs ++ [c] })

/-- The end of `test`, `DD.py:309-321`: run the test, put the outcome in the tree. -/
def Obj.runAndAdd (st : Settings) (f : List α → Out) (c : List α) (o : Obj α) :
    Res (Out × Obj α) := do
  let (v, o) ← o.run f c
  .ok (v, if st.cache then { o with tree := o.tree.add c v } else o)

/-- `test(c)`, `DD.py:289-321`. -/
def Obj.test (st : Settings) (le : α → α → Bool) (f : List α → Out) (c : List α)
    (o : Obj α) : Res (Out × Obj α) :=
  match (if st.cache then o.tree.lookup c else none) with
  | some v => .ok (v, o)
  | none =>
    if st.monotony then do
      let sup ← o.tree.lookupSuperset le c
      if sup = some .pass then .ok (.pass, o)
      else if o.tree.lookupSubset c = some .fail then .ok (.fail, o)
      else o.runAndAdd st f c
    else o.runAndAdd st f c

/-! ## The searches

They are written for any test `t` that carries a state `σ`. -/

/-- `__listunion`, `DD.py:251-262`. -/
def listunion (c1 c2 : List α) : List α := c1 ++ c2.filter fun d => decide (d ∉ c1)

/-- `__listsubseteq`, `DD.py:264-274`. -/
def listsubseteq (c1 c2 : List α) : Bool := c1.all fun d => decide (d ∈ c2)

variable {σ : Type}

/-- `test_and_resolve(csub, r, c, direction)`, `DD.py:391-432`, with the stub
`_resolve`: an unresolved outcome is answered with the list that was given. -/
def testResolve (t : List α → σ → Res (Out × σ)) (csub r : List α) (s : σ) :
    Res (Out × List α × σ) := do
  let csubr := listunion csub r
  let (v, s) ← t csubr s
  if v = .unres then .ok (.unres, csub, s)
  else .ok (v, listminus csubr r, s)

/-- What a round of `_dddiff` found: the new `c1` or the new `c2`, with the next number of
chunks and the next offset. -/
inductive Found (α : Type) where
  | lower (c1 : List α) (n off : Nat)
  | upper (c2 : List α) (n off : Nat)
  deriving DecidableEq, Repr

/-- The loop over the chunks of `_dddiff`, `DD.py:930-1006`; `js` are the values of `j`
left.  `t1` is `PASS` and `t2` is `FAIL` here, by the assertions. -/
def diffLoop (t : List α → σ → Res (Out × σ)) (c1 c : List α) (cs : List (List α))
    (n off : Nat) : List Nat → σ → Res (Option (Found α) × σ)
  | [], s => .ok (none, s)
  | j :: js, s => do
    let i := (j + off) % n
    let (v, csub, s) ← testResolve t (cs.getD i []) c1 s
    let csub := listunion c1 csub
    if v = .fail then .ok (some (.upper csub 2 0), s)
    else if v = .pass then .ok (some (.lower csub (max (n - 1) 2) i), s)
    else
      let (v, csub, s) ← testResolve t (listminus c (cs.getD i [])) c1 s
      let csub := listunion c1 csub
      if v = .pass then .ok (some (.lower csub 2 0), s)
      else if v = .fail then .ok (some (.upper csub (max (n - 1) 2) i), s)
      else diffLoop t c1 c cs n off js s

/-- The assertions at the head of the loop of `_dddiff`, `DD.py:885-893`. -/
def axiomsHold (t : List α → σ → Res (Out × σ)) (assume : Bool) (c1 c2 : List α) (s : σ) :
    Res σ :=
  if assume then .ok s
  else do
    let (t1, s) ← t c1 s
    let (t2, s) ← t c2 s
    if t1 = .pass ∧ t2 = .fail then .ok s else .exit

/-- `_dddiff(c1, c2, n)`, `DD.py:875-1023`; the tuple is `(c, c1, c2)`. -/
def dddiffLoop (t : List α → σ → Res (Out × σ)) (assume : Bool) :
    Nat → List α → List α → Nat → Nat → σ → Res ((List α × List α × List α) × σ)
  | 0, _, _, _, _, _ => .fuel
  | fu + 1, c1, c2, n, off, s => do
    let s ← axiomsHold t assume c1 c2 s
    if listsubseteq c1 c2 = false then .exit
    else
      let c := listminus c2 c1
      if c.length < n then .ok ((c, c1, c2), s)
      else
        let (r, s) ← diffLoop t c1 c (split c n) n off (List.range n) s
        match r with
        | some (.lower c1' n' off') => dddiffLoop t assume fu c1' c2 n' off' s
        | some (.upper c2' n' off') => dddiffLoop t assume fu c1 c2' n' off' s
        | none =>
          if c.length ≤ n then .ok ((c, c1, c2), s)
          else
            let n' := min c.length (n * 2)
            dddiffLoop t assume fu c1 c2 n' (off * n' / n) s

/-- `dddiff(c)`, `DD.py:862-874`. -/
def dddiff (t : List α → σ → Res (Out × σ)) (assume : Bool) (fu : Nat) (c : List α) (s : σ) :
    Res ((List α × List α × List α) × σ) := dddiffLoop t assume fu [] c 2 0 s

/-- The opposite outcome, `DD.py:492-497`. -/
def Out.opp : Out → Out
  | .pass => .fail
  | .fail => .pass
  | .unres => .unres

/-- The half of `test_mix` for `maximize`, `DD.py:480-499`: the outcome is
the opposite of the one of the complement. -/
def mixBar (t : List α → σ → Res (Out × σ)) (cc csub : List α) (s : σ) :
    Res (Out × List α × σ) := do
  let (tbar, csubbar, s) ← testResolve t (listminus cc csub) [] s
  .ok (tbar.opp, listminus cc csubbar, s)

/-- `test_mix(csub, c, direction)`, `DD.py:474-499`.  With neither half the variable `t`
is not bound: an exception. -/
def mixTest (t : List α → σ → Res (Out × σ)) (mini maxi : Bool) (cc csub : List α) (s : σ) :
    Res (Out × List α × σ) :=
  if mini then do
    let (v, csub, s) ← testResolve t csub [] s
    if v = .fail then .ok (v, csub, s)
    else if maxi then mixBar t cc csub s
    else .ok (v, csub, s)
  else if maxi then mixBar t cc csub s
  else .exit

/-- "Check subsets" of `_dd`, `DD.py:570-592`: answers the chunks as left by the tests,
and the failing one. -/
def genSubsets (t : List α → σ → Res (Out × σ)) (mini maxi : Bool) (cc : List α) :
    List (List α) → σ → Res (Option (List α) × List (List α) × σ)
  | [], s => .ok (none, [], s)
  | x :: r, s => do
    let (v, x, s) ← mixTest t mini maxi cc x s
    if v = .fail then .ok (some x, x :: r, s)
    else
      let (o, r, s) ← genSubsets t mini maxi cc r s
      .ok (o, x :: r, s)

/-- "Check complements" of `_dd`, `DD.py:595-625`.  The chunk changed at lines 605-607 is
not looked at again. -/
def genCompl (t : List α → σ → Res (Out × σ)) (mini maxi : Bool) (cc c : List α)
    (cs : List (List α)) (n off : Nat) : List Nat → σ → Res (Option (Nat × List α) × σ)
  | [], s => .ok (none, s)
  | j :: js, s => do
    let i := (j + off) % n
    let (v, cbar, s) ← mixTest t mini maxi cc (listminus c (cs.getD i [])) s
    if v = .fail then .ok (some (i, cbar), s)
    else genCompl t mini maxi cc c cs n off js s

/-- The loop of `_dd`, `DD.py:536-639`.  `u` is `_test`, without the cache; `first` is
`run == 1`, and `deltaFailedMsg` ends the process (`DD_stoch.py:487-496`). -/
def genLoop (t u : List α → σ → Res (Out × σ)) (unsafe_ mini maxi : Bool) (cc : List α) :
    Nat → Bool → List α → Nat → Nat → σ → Res (List α × σ)
  | 0, _, _, _, _, _ => .fuel
  | fu + 1, first, c, n, off, s => do
    let (tc, s) ← u c s
    if tc = .pass ∧ (first ∨ unsafe_ = false) then .exit
    else if c.length < n then .ok (c, s)
    else
      let (b, cs, s) ← genSubsets t mini maxi cc (split c n) s
      match b with
      | some sub => genLoop t u unsafe_ mini maxi cc fu false sub 2 0 s
      | none =>
        let (b, s) ← genCompl t mini maxi cc c cs n off (List.range n) s
        match b with
        | some (i, cbar) =>
          genLoop t u unsafe_ mini maxi cc fu false (listintersect c cbar) (n - 1) i s
        | none =>
          if c.length ≤ n then .ok (c, s)
          else
            let n' := min c.length (n * 2)
            genLoop t u unsafe_ mini maxi cc fu false c n' (off * n' / n) s

/-- `ddgen(c, minimize, maximize)`, `DD.py:503-530`. -/
def ddgen (t u : List α → σ → Res (Out × σ)) (unsafe_ : Bool) (fu : Nat) (c : List α)
    (mini maxi : Bool) (s : σ) : Res (List α × σ) := do
  let (v, s) ← t [] s
  if v = .pass then genLoop t u unsafe_ mini maxi c fu true c 2 0 s else .exit

/-- `ddmin`, `ddmax` and `ddmix`, `DD.py:851-858`. -/
def ddminGen (t u : List α → σ → Res (Out × σ)) (unsafe_ : Bool) (fu : Nat) (c : List α)
    (s : σ) : Res (List α × σ) := ddgen t u unsafe_ fu c true false s
@[inherit_doc ddminGen]
def ddmaxGen (t u : List α → σ → Res (Out × σ)) (unsafe_ : Bool) (fu : Nat) (c : List α)
    (s : σ) : Res (List α × σ) := ddgen t u unsafe_ fu c false true s
@[inherit_doc ddminGen]
def ddmixGen (t u : List α → σ → Res (Out × σ)) (unsafe_ : Bool) (fu : Nat) (c : List α)
    (s : σ) : Res (List α × σ) := ddgen t u unsafe_ fu c true true s

end

end Verif.Ddtool
