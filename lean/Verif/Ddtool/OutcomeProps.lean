import Verif.Ddtool.Outcome
import Mathlib.Data.List.Basic

/-!
# The outcome cache (C109)

`OutcomeCache` is to avoid "running the same test twice" (`DD.py:51-52`), and with
`monotony` to answer a test from the outcome of a superset or of a subset.

The statements are about histories: a list of configurations with the outcomes they were
added with, and `remembered`, the outcome of the last entry of a configuration.
-/

namespace Verif.Ddtool

variable {α : Type} [DecidableEq α]

/-- The outcome of the last entry of `c` in a history. -/
def remembered (h : List (List α × Out)) (c : List α) : Option Out :=
  (h.reverse.find? fun e => decide (e.1 = c)).map Prod.snd

/-- The tree after a history of calls of `add`. -/
def treeOf (h : List (List α × Out)) (t : Trie α := .empty) : Trie α :=
  h.foldl (fun t e => t.add e.1 e.2) t

theorem Forest.get?_set (k k' : α) (t : Trie α) : ∀ f : Forest α,
    (f.set k t).get? k' = if k = k' then some t else f.get? k'
  | .nil => by simp [Forest.set, Forest.get?]
  | .cons k1 t1 r => by
    have ih := Forest.get?_set k k' t r
    unfold Forest.set
    by_cases h1 : k1 = k
    · subst h1
      by_cases h2 : k1 = k' <;> simp [Forest.get?, h2]
    · by_cases h2 : k1 = k'
      · subst h2
        simp [h1, Forest.get?, Ne.symm h1]
      · simp [h1, Forest.get?, h2, ih]

theorem Trie.lookup_empty (c : List α) : Trie.lookup c (.empty : Trie α) = none := by
  cases c <;> rfl

/-- One `add` changes what is found for its own path and nothing else. -/
theorem Trie.lookup_add (v : Out) : ∀ (c c' : List α) (t : Trie α),
    (t.add c v).lookup c' = if c = c' then some v else t.lookup c'
  | [], [], .node r tl => by simp [Trie.add, Trie.lookup]
  | [], x :: c', .node r tl => by simp [Trie.add, Trie.lookup]
  | k :: c, [], .node r tl => by simp [Trie.add, Trie.lookup]
  | k :: c, x :: c', .node r tl => by
    simp only [Trie.add, Trie.lookup, Forest.get?_set]
    by_cases hk : k = x
    · subst hk
      simp only [if_true, List.cons.injEq, true_and]
      rw [Trie.lookup_add v c c']
      by_cases hc : c = c'
      · simp [hc]
      · simp only [hc, if_false]
        cases tl.get? k with
        | none => simp [Trie.lookup_empty]
        | some t => rfl
    · simp [hk]

theorem lookup_treeOf (h : List (List α × Out)) : ∀ (t : Trie α) (c : List α),
    (treeOf h t).lookup c = (remembered h c).or (t.lookup c) := by
  induction h with
  | nil => intro t c; simp [treeOf, remembered]
  | cons e h ih =>
    intro t c
    have := ih (t.add e.1 e.2) c
    unfold treeOf at this ⊢
    rw [List.foldl_cons, this, Trie.lookup_add]
    unfold remembered
    rw [List.reverse_cons, List.find?_append]
    cases h.reverse.find? (fun e => decide (e.1 = c)) with
    | some x => simp
    | none => by_cases hc : e.1 = c <;> simp [hc]

/-- C109: the tree finds for every configuration, after any history, the outcome it was
last added with, and nothing for a configuration that was never added. -/
theorem C109_lookup (h : List (List α × Out)) (c : List α) :
    (treeOf h).lookup c = remembered h c := by
  rw [lookup_treeOf, Trie.lookup_empty, Option.or_none]

example : (treeOf [([1, 2, 3], .pass), ([1, 2], .fail), ([1, 4, 5], .fail)]).lookup [1, 2]
    = some .fail := by decide
example : (treeOf [([1, 2, 3], .pass), ([1, 2], .fail), ([1, 4, 5], .fail)]).lookup [1]
    = none := by decide

/-! ## Tests with the cache -/

/-- A history of calls of `test`: the outcomes. -/
def testAll (st : Settings) (le : α → α → Bool) (f : List α → Out) :
    List (List α) → Obj α → Res (List Out × Obj α)
  | [], o => .ok ([], o)
  | c :: cs, o => do
    let (v, o) ← o.test st le f c
    let (vs, o) ← testAll st le f cs o
    .ok (v :: vs, o)

/-- The list without the later occurrences, given those seen before. -/
def firsts : List (List α) → List (List α) → List (List α)
  | _, [] => []
  | seen, c :: cs => if c ∈ seen then firsts seen cs else c :: firsts (c :: seen) cs

theorem mem_firsts {x : List α} : ∀ (cs seen : List (List α)),
    x ∈ firsts seen cs ↔ x ∈ cs ∧ x ∉ seen
  | [], _ => by simp [firsts]
  | c :: cs, seen => by
    unfold firsts
    by_cases h : c ∈ seen
    · rw [if_pos h, mem_firsts cs seen]
      constructor
      · exact fun ⟨a, b⟩ => ⟨List.mem_cons_of_mem _ a, b⟩
      · rintro ⟨a, b⟩
        rcases List.mem_cons.1 a with rfl | a
        · exact absurd h b
        · exact ⟨a, b⟩
    · rw [if_neg h, List.mem_cons, mem_firsts cs (c :: seen)]
      constructor
      · rintro (rfl | ⟨a, b⟩)
        · exact ⟨by simp, h⟩
        · exact ⟨List.mem_cons_of_mem _ a, fun hx => b (List.mem_cons_of_mem _ hx)⟩
      · rintro ⟨a, b⟩
        by_cases e : x = c
        · exact .inl e
        · refine .inr ⟨(List.mem_cons.1 a).resolve_left e, fun hx => ?_⟩
          exact (List.mem_cons.1 hx).elim e b

theorem nodup_firsts : ∀ (cs seen : List (List α)), (firsts seen cs).Nodup
  | [], _ => by simp [firsts]
  | c :: cs, seen => by
    unfold firsts
    by_cases h : c ∈ seen
    · rw [if_pos h]; exact nodup_firsts cs seen
    · rw [if_neg h, List.nodup_cons]
      exact ⟨fun hc => ((mem_firsts cs _).1 hc).2 (by simp), nodup_firsts cs _⟩

/-- What the cache holds when it is right: the outcomes of the configurations run. -/
def Holds (f : List α → Out) (seen : List (List α)) (o : Obj α) : Prop :=
  ∀ c, o.tree.lookup c = if c ∈ seen then some (f c) else none

theorem Holds.fresh (f : List α → Out) : Holds f [] (Obj.fresh : Obj α) := by
  intro c; simp [Obj.fresh, Trie.lookup_empty]

/-- One call of `test`: a configuration seen before is answered from the tree, another one
is run. -/
theorem test_cached {le : α → α → Bool} {f : List α → Out} {seen : List (List α)}
    {o : Obj α} (h : Holds f seen o) (c : List α) :
    ∃ o', o.test ⟨true, false⟩ le f c = .ok (f c, o') ∧
      if c ∈ seen then o' = o else Holds f (c :: seen) o' ∧ o'.runs = o.runs ++ [c] := by
  unfold Obj.test
  simp only [if_true, h c]
  by_cases hc : c ∈ seen
  · simp [hc]
  · simp only [hc, if_false, Bool.false_eq_true, Obj.runAndAdd, Obj.run, Res.ok_bind, if_true]
    refine ⟨_, rfl, fun c' => ?_, rfl⟩
    simp only [Trie.lookup_add, h c', List.mem_cons]
    by_cases e : c = c'
    · simp [e]
    · simp [e, Ne.symm e]

theorem testAll_cached {le : α → α → Bool} {f : List α → Out} : ∀ (cs seen : List (List α))
    (o : Obj α), Holds f seen o → ∃ o', testAll ⟨true, false⟩ le f cs o =
      .ok (cs.map f, o') ∧ o'.runs = o.runs ++ firsts seen cs
  | [], _, o, _ => ⟨o, rfl, by simp [firsts]⟩
  | c :: cs, seen, o, h => by
    obtain ⟨o1, h1, h2⟩ := test_cached (le := le) h c
    simp only [testAll, h1, Res.ok_bind, firsts]
    by_cases hc : c ∈ seen
    · rw [if_pos hc] at h2
      subst h2
      obtain ⟨o', e, hr⟩ := testAll_cached (le := le) cs seen o1 h
      simp only [e, Res.ok_bind, if_pos hc]
      exact ⟨o', rfl, hr⟩
    · rw [if_neg hc] at h2
      obtain ⟨o', e, hr⟩ := testAll_cached (le := le) cs (c :: seen) o1 h2.1
      simp only [e, Res.ok_bind, if_neg hc]
      exact ⟨o', rfl, by rw [hr, h2.2]; simp⟩

/-- C109: for every test and every history of calls, `test` with the cache answers what
`_test` answers; `_test` is called for exactly the configurations of the history, once
each, in the order of their first occurrence. -/
theorem C109_test (le : α → α → Bool) (f : List α → Out) (cs : List (List α)) :
    ∃ o', testAll ⟨true, false⟩ le f cs (Obj.fresh : Obj α) = .ok (cs.map f, o') ∧
      o'.runs = firsts [] cs ∧ o'.runs.Nodup ∧ ∀ c, c ∈ o'.runs ↔ c ∈ cs := by
  obtain ⟨o', h, hr⟩ := testAll_cached (le := le) cs [] Obj.fresh (Holds.fresh f)
  have hr : o'.runs = firsts [] cs := by rw [hr]; rfl
  refine ⟨o', h, hr, hr ▸ nodup_firsts _ _, fun c => ?_⟩
  rw [hr, mem_firsts]; simp

/-- C109: without the cache (`DD_stoch.py:179`) every call runs the test. -/
theorem C109_uncached (le : α → α → Bool) (f : List α → Out) (cs : List (List α))
    (o : Obj α) : testAll ⟨false, false⟩ le f cs o =
      .ok (cs.map f, { o with runs := o.runs ++ cs }) := by
  induction cs generalizing o with
  | nil => simp [testAll]
  | cons c cs ih =>
    simp [testAll, Obj.test, Obj.runAndAdd, Obj.run, ih]

/-- A failing test needs both 1 and 2. -/
def both12 (c : List Nat) : Out := if 1 ∈ c ∧ 2 ∈ c then .fail else .pass

example : (match testAll ⟨true, false⟩ (fun a b => decide (a ≤ b)) both12
      [[1, 2], [1], [1, 2], [1]] Obj.fresh with
    | .ok (vs, o) => decide (vs = [.fail, .pass, .fail, .pass] ∧ o.runs = [[1, 2], [1]])
    | _ => false) = true := by decide

/-- C109, negation: the same set of deltas in another order is run again.  `add` makes a
sorted copy of the configuration (`DD.py:71-72`) but does not use it. -/
theorem C109_order_wrong : ¬ ∀ (f : List Nat → Out) (a b : List Nat), a.Perm b →
    ∃ vs o', testAll ⟨true, false⟩ (fun a b => decide (a ≤ b)) f [a, b] Obj.fresh =
      .ok (vs, o') ∧ o'.runs.length = 1 := by
  intro h
  obtain ⟨vs, o', h1, h2⟩ := h both12 [1, 2] [2, 1] (List.Perm.swap 2 1 [])
  obtain ⟨o2, h3, h4, -⟩ := C109_test (fun a b : Nat => decide (a ≤ b)) both12 [[1, 2], [2, 1]]
  rw [h1] at h3
  simp only [Res.ok.injEq, Prod.mk.injEq] at h3
  rw [h3.2, h4] at h2
  revert h2; decide

/-! ## Supersets and subsets -/

/-- C109: the outcome that `lookup_subset` returns is the one of a configuration that was
added and is contained in the argument. -/
theorem lookupSubset_sound {v : Out} : ∀ (c : List α) (t : Trie α),
    t.lookupSubset c = some v → ∃ c', c'.Sublist c ∧ t.lookup c' = some v
  | [], .node r tl, h => ⟨[], List.Sublist.refl _, h⟩
  | k :: c, .node r tl, h => by
    unfold Trie.lookupSubset at h
    cases hk : tl.get? k with
    | none =>
      rw [hk] at h
      obtain ⟨c', h1, h2⟩ := lookupSubset_sound c _ h
      exact ⟨c', h1.cons _, h2⟩
    | some t =>
      rw [hk] at h
      obtain ⟨c', h1, h2⟩ := lookupSubset_sound c _ h
      exact ⟨k :: c', h1.cons_cons _, by simp [Trie.lookup, hk, h2]⟩

/-- C109: what `lookup_subset` answers is remembered for a part of the argument. -/
theorem C109_subset_partial (h : List (List α × Out)) (c : List α) (v : Out)
    (hv : (treeOf h).lookupSubset c = some v) :
    ∃ c', c'.Sublist c ∧ remembered h c' = some v := by
  obtain ⟨c', h1, h2⟩ := lookupSubset_sound c _ hv
  exact ⟨c', h1, by rw [← C109_lookup, h2]⟩

example : (treeOf [([1, 2], .fail)]).lookupSubset [0, 1, 2, 7] = some .fail := by decide

/-- C109, negation: `lookup_subset` misses subsets that are in the cache, because it goes
down wherever it can: here `[2]` is there. -/
theorem C109_subset_wrong : ¬ ∀ (h : List (List Nat × Out)) (c c' : List Nat) (v : Out),
    remembered h c' = some v → c'.Sublist c → (treeOf h).lookupSubset c ≠ none := by
  intro h
  exact h [([2], .fail), ([1, 3], .pass)] [1, 2] [2] .fail (by decide) (by decide) (by decide)

theorem lookupSuperset_sound (le : α → α → Bool) {v : Out} (c : List α) (t : Trie α)
    (h : t.lookupSuperset le c = .ok (some v)) :
    ∃ c', c.Sublist c' ∧ t.lookup c' = some v := by
  induction c, t using Trie.lookupSuperset.induct (le := le) with
  | case1 tl w =>
    simp only [Trie.lookupSuperset, Res.ok.injEq, Option.some.injEq] at h
    exact ⟨[], List.Sublist.refl _, by simp [Trie.lookup, h]⟩
  | case2 => simp [Trie.lookupSuperset] at h
  | case3 => simp [Trie.lookupSuperset] at h
  | case4 r tl x c t hx ih =>
    rw [Trie.lookupSuperset] at h
    split at h
    · rename_i t' ht'
      rw [hx] at ht'; cases ht'
      obtain ⟨c', h1, h2⟩ := ih h
      exact ⟨x :: c', h1.cons_cons _, by simp [Trie.lookup, hx, h2]⟩
    · rename_i ht'; rw [hx] at ht'; cases ht'
  | case5 r tl x c hx hl =>
    rw [Trie.lookupSuperset] at h
    split at h
    · rename_i ht'; rw [hx] at ht'; cases ht'
    · rw [hl] at h; simp at h
  | case6 r tl x c hx k0 hl t hk ih =>
    rw [Trie.lookupSuperset] at h
    split at h
    · rename_i ht'; rw [hx] at ht'; cases ht'
    · rw [hl] at h
      simp only at h
      split at h
      · rename_i ht'
        rw [hk] at ht'; cases ht'
        obtain ⟨c', h1, h2⟩ := ih h
        exact ⟨k0 :: c', h1.cons _, by simp [Trie.lookup, hk, h2]⟩
      · simp at h
  | case7 r tl x c hx k0 hl hk =>
    rw [Trie.lookupSuperset] at h
    split at h
    · rename_i ht'; rw [hx] at ht'; cases ht'
    · rw [hl] at h
      simp only at h
      split at h
      · rename_i ht'; rw [hk] at ht'; cases ht'
      · simp at h

/-- C109: what `lookup_superset` answers, when it answers, is remembered for a
configuration that contains the argument. -/
theorem C109_superset_partial (le : α → α → Bool) (h : List (List α × Out)) (c : List α)
    (v : Out) (hv : (treeOf h).lookupSuperset le c = .ok (some v)) :
    ∃ c', c.Sublist c' ∧ remembered h c' = some v := by
  obtain ⟨c', h1, h2⟩ := lookupSuperset_sound le c _ hv
  exact ⟨c', h1, by rw [← C109_lookup, h2]⟩

example : (treeOf [([5, 6, 7], .pass)]).lookupSuperset (fun a b => decide (a ≤ b)) [6, 7] =
    .ok (some .pass) := by
  simp [treeOf, Trie.add, Forest.set, Forest.get?, Trie.empty, Trie.lookupSuperset, largest,
    Forest.keys]

/-- The tree below a path that is a proper prefix of an entry has a key. -/
theorem superset_prefix (le : α → α → Bool) {v : Out} (y : α) (ys : List α) :
    ∀ (c : List α) (t : Trie α), t.lookup c = none → t.lookup (c ++ y :: ys) = some v →
      t.lookupSuperset le c = .exit
  | [], .node r tl, h1, h2 => by
    have h1 : r = none := h1
    subst h1
    cases tl with
    | nil => simp [Trie.lookup, Forest.get?] at h2
    | cons => simp [Trie.lookupSuperset]
  | x :: c, .node r tl, h1, h2 => by
    rw [Trie.lookupSuperset]
    cases hx : tl.get? x with
    | none => simp [Trie.lookup, hx] at h2
    | some t =>
      simp only [Trie.lookup, hx] at h1
      simp only [List.cons_append, Trie.lookup, hx] at h2
      have := superset_prefix le y ys c t h1 h2
      split
      · rename_i t' ht'; cases ht'; exact this
      · rename_i ht'; cases ht'

/-- C109: under Python 3 `lookup_superset` ends in a `TypeError` for every configuration
that is not in the cache but is the beginning of one that is: the only use it has. -/
theorem C109_superset_raises (le : α → α → Bool) (h : List (List α × Out)) (c : List α)
    (y : α) (ys : List α) (v : Out) (h1 : remembered h c = none)
    (h2 : remembered h (c ++ y :: ys) = some v) :
    (treeOf h).lookupSuperset le c = .exit :=
  superset_prefix le y ys c _ (by rw [C109_lookup, h1]) (by rw [C109_lookup, h2])

example : (treeOf [([1, 2], .pass)]).lookupSuperset (fun a b => decide (a ≤ b)) [1] = .exit :=
  C109_superset_raises _ _ [1] 2 [] .pass (by decide) (by decide)

/-- C109, negation: a superset in the cache is not found when another key is nearer. -/
theorem C109_superset_wrong : ¬ ∀ (h : List (List Nat × Out)) (c c' : List Nat) (v : Out),
    remembered h c' = some v → c.Sublist c' →
      (treeOf h).lookupSuperset (fun a b => decide (a ≤ b)) c ≠ .ok none := by
  intro h
  refine h [([1, 3], .pass), ([2], .fail)] [3] [1, 3] .pass (by decide) (by decide) ?_
  simp [treeOf, Trie.add, Forest.set, Forest.get?, Trie.empty, Trie.lookupSuperset, largest,
    Forest.keys]

/-! ## Monotony -/

/-- "Monotony": what is contained in a passing configuration passes, what contains a
failing one fails. -/
structure Monotone (f : List α → Out) : Prop where
  pass : ∀ a b : List α, a.Sublist b → f b = .pass → f a = .pass
  fail : ∀ a b : List α, a.Sublist b → f a = .fail → f b = .fail

/-- The tree holds outcomes of the test only. -/
def Faithful (f : List α → Out) (o : Obj α) : Prop :=
  ∀ c v, o.tree.lookup c = some v → v = f c

theorem Faithful.fresh (f : List α → Out) : Faithful f (Obj.fresh : Obj α) := by
  intro c v h; simp [Obj.fresh, Trie.lookup_empty] at h

theorem runAndAdd_faithful {st : Settings} {f : List α → Out} {o : Obj α}
    (h : Faithful f o) (c : List α) {v : Out} {o' : Obj α}
    (e : o.runAndAdd st f c = .ok (v, o')) : v = f c ∧ Faithful f o' := by
  simp only [Obj.runAndAdd, Obj.run, Res.ok_bind, Res.ok.injEq, Prod.mk.injEq] at e
  obtain ⟨rfl, rfl⟩ := e
  refine ⟨rfl, fun c' v hv => ?_⟩
  split at hv
  · simp only [Trie.lookup_add] at hv
    split at hv
    · rename_i hc; subst hc; exact (Option.some.inj hv).symm
    · exact h _ _ hv
  · exact h _ _ hv

theorem test_faithful {st : Settings} {le : α → α → Bool} {f : List α → Out}
    (hm : st.monotony = true → Monotone f) {o : Obj α} (h : Faithful f o) (c : List α)
    {v : Out} {o' : Obj α} (e : o.test st le f c = .ok (v, o')) :
    v = f c ∧ Faithful f o' := by
  unfold Obj.test at e
  split at e
  · rename_i w hw
    simp only [Res.ok.injEq, Prod.mk.injEq] at e
    obtain ⟨rfl, rfl⟩ := e
    split at hw
    · exact ⟨h _ _ hw, h⟩
    · cases hw
  · split at e
    · rename_i hmono
      have hm := hm hmono
      cases hs : o.tree.lookupSuperset le c with
      | exit => rw [hs] at e; cases e
      | fuel => rw [hs] at e; cases e
      | ok sup =>
        rw [hs, Res.ok_bind] at e
        split at e
        · rename_i hp
          subst hp
          simp only [Res.ok.injEq, Prod.mk.injEq] at e
          obtain ⟨rfl, rfl⟩ := e
          obtain ⟨c', h1, h2⟩ := lookupSuperset_sound le c _ hs
          exact ⟨(hm.pass _ _ h1 (h _ _ h2).symm).symm, h⟩
        · split at e
          · rename_i hf
            simp only [Res.ok.injEq, Prod.mk.injEq] at e
            obtain ⟨rfl, rfl⟩ := e
            obtain ⟨c', h1, h2⟩ := lookupSubset_sound c _ hf
            exact ⟨(hm.fail _ _ h1 (h _ _ h2).symm).symm, h⟩
          · exact runAndAdd_faithful h c e
    · exact runAndAdd_faithful h c e

/-- C109: for a monotone test, whatever the settings, a history of calls of `test` that
does not raise gives the outcomes of the test. -/
theorem C109_monotone_partial (st : Settings) (le : α → α → Bool) (f : List α → Out)
    (hm : st.monotony = true → Monotone f) (cs : List (List α)) (vs : List Out) (o' : Obj α)
    (e : testAll st le f cs (Obj.fresh : Obj α) = .ok (vs, o')) : vs = cs.map f := by
  have aux : ∀ (cs : List (List α)) (o : Obj α) (vs : List Out) (o' : Obj α), Faithful f o →
      testAll st le f cs o = .ok (vs, o') → vs = cs.map f := by
    intro cs
    induction cs with
    | nil =>
      intro o vs o' _ e
      simp only [testAll, Res.ok.injEq, Prod.mk.injEq] at e
      simp [← e.1]
    | cons c cs ih =>
      intro o vs o' h e
      simp only [testAll] at e
      cases h1 : o.test st le f c with
      | exit => rw [h1] at e; cases e
      | fuel => rw [h1] at e; cases e
      | ok p =>
        obtain ⟨v, o1⟩ := p
        rw [h1, Res.ok_bind] at e
        obtain ⟨rfl, ho1⟩ := test_faithful hm h c h1
        cases h2 : testAll st le f cs o1 with
        | exit => simp [h2] at e
        | fuel => simp [h2] at e
        | ok p =>
          obtain ⟨ws, o2⟩ := p
          simp only [h2, Res.ok_bind, Res.ok.injEq, Prod.mk.injEq] at e
          rw [← e.1, ih _ _ _ ho1 h2]; rfl
  exact aux cs _ vs o' (Faithful.fresh f) e

theorem both12_monotone : Monotone both12 := by
  constructor
  · intro a b h hb
    unfold both12 at hb ⊢
    split at hb
    · cases hb
    · rename_i hn
      rw [if_neg fun ⟨h1, h2⟩ => hn ⟨h.subset h1, h.subset h2⟩]
  · intro a b h ha
    unfold both12 at ha ⊢
    split at ha
    · rename_i hn
      rw [if_pos ⟨h.subset hn.1, h.subset hn.2⟩]
    · cases ha

/-- C109: with `monotony` the second test of a search raises: a configuration, then the
beginning of it. -/
theorem C109_monotony_raises (le : α → α → Bool) (f : List α → Out) (c : List α) (y : α)
    (ys : List α) :
    testAll ⟨true, true⟩ le f [c ++ y :: ys, c] (Obj.fresh : Obj α) = .exit := by
  have h0 : (Trie.empty : Trie α).lookupSuperset le (c ++ y :: ys) = .ok none := by
    cases c <;> simp [Trie.empty, Trie.lookupSuperset, Forest.get?, largest, Forest.keys]
  have hs : (Trie.empty : Trie α).lookupSubset (c ++ y :: ys) = none := by
    generalize c ++ y :: ys = l
    induction l with
    | nil => rfl
    | cons x l ih => simpa [Trie.empty, Trie.lookupSubset, Forest.get?] using ih
  have h1 : (Trie.empty.add (c ++ y :: ys) (f (c ++ y :: ys))).lookupSuperset le c = .exit :=
    C109_superset_raises le [(c ++ y :: ys, f (c ++ y :: ys))] c y ys (f (c ++ y :: ys))
      (by simp [remembered]) (by simp [remembered])
  have h2 : (Trie.empty.add (c ++ y :: ys) (f (c ++ y :: ys))).lookup c = none := by
    rw [Trie.lookup_add, if_neg (by simp), Trie.lookup_empty]
  simp [testAll, Obj.test, Obj.fresh, Trie.lookup_empty, h0, hs, Obj.runAndAdd, Obj.run, h1,
    h2]

end Verif.Ddtool
