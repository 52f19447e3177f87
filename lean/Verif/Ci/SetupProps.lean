import Verif.Ci.Setup

/-!
# Property C116: `vfc_ci setup` and the repository

A run that is refused changes nothing.  No run takes a commit away from any branch, here or on the remote, or touches other
branches.  A run that is finished adds the workflow to the branch of the developer, which is also pushed, and leaves HEAD and
the files where they were.  The checks at the start do not see untracked files, which are committed and pushed with the workflow; a
second run empties the branch of the results.
-/

namespace Verif.Ci.Setup

/-! ## Files -/

theorem get_filter (q : String → Bool) (t : Tree) (p : String) :
    Tree.get (t.filter fun e => q e.1) p = if q p then t.get p else none := by
  unfold Tree.get
  induction t with
  | nil => simp
  | cons e t ih =>
    rw [List.filter_cons]
    by_cases he : e.1 = p
    · subst he
      by_cases hq : q e.1 = true
      · simp [hq]
      · simp only [hq] at ih ⊢
        simpa using ih
    · by_cases hq : q e.1 = true
      · rw [if_pos hq, List.find?_cons_of_neg (by simpa using he), List.find?_cons_of_neg (by simpa using he), ih]
      · rw [if_neg hq, List.find?_cons_of_neg (by simpa using he), ih]

theorem get_set (t : Tree) (p c x : String) : (t.set p c).get x = if x = p then some c else t.get x := by
  unfold Tree.set
  by_cases h : x = p
  · subst h
    simp [Tree.get]
  · have e := get_filter (fun y => y != p) t x
    rw [if_pos (by simpa using h)] at e
    rw [if_neg h, ← e]
    have : (p == x) = false := by simpa using fun hh => h hh.symm
    simp [Tree.get, this]

theorem get_append (s t : Tree) (p : String) : Tree.get (s ++ t) p = (s.get p).or (t.get p) := by
  unfold Tree.get
  rw [List.find?_append]
  cases s.find? fun e => e.1 == p <;> rfl

theorem get_none (t : Tree) (p : String) (h : ∀ e ∈ t, e.1 ≠ p) : t.get p = none := by
  unfold Tree.get
  rw [List.find?_eq_none.2 (by simpa using h)]
  rfl

theorem get_mem (t : Tree) (p : String) (h : t.get p ≠ none) : ∃ e ∈ t, e.1 = p := by
  by_contra hc
  exact h (get_none t p fun e he hp => hc ⟨e, he, hp⟩)

/-! ## Commits -/

/-- A commit is reached from another through parents. -/
inductive Reach (objs : List Obj) : Nat → Nat → Prop
  | refl (n : Nat) : Reach objs n n
  | step (n p m : Nat) (o : Obj) (h : objs[n]? = some o) (hp : p ∈ o.parents) (hm : Reach objs p m) : Reach objs n m

/-- Parents are older, and names are names of commits. -/
structure WF (r : Repo) : Prop where
  older : ∀ (n : Nat) (o : Obj), r.objs[n]? = some o → ∀ p ∈ o.parents, p < n
  branches : ∀ b n, r.branches b = some n → n < r.objs.length
  seen : ∀ b n, r.seen b = some n → n < r.objs.length
  remote : ∀ b n, r.remote b = some n → n < r.objs.length

theorem Reach.trans {objs : List Obj} {a b c : Nat} (h : Reach objs a b) (h' : Reach objs b c) : Reach objs a c := by
  induction h with
  | refl n => exact h'
  | step n p m o ho hp _ ih => exact .step n p c o ho hp (ih h')

theorem Reach.mono {objs : List Obj} {a b : Nat} (l : List Obj) (h : Reach objs a b) : Reach (objs ++ l) a b := by
  induction h with
  | refl n => exact .refl n
  | step n p m o ho hp _ ih =>
    refine .step n p m o ?_ hp ih
    rw [List.getElem?_append_left ((List.getElem?_eq_some_iff.1 ho).1), ho]

theorem reach_le {objs : List Obj} (hw : ∀ (n : Nat) (o : Obj), objs[n]? = some o → ∀ p ∈ o.parents, p < n) {a b : Nat} (h : Reach objs a b) : b ≤ a := by
  induction h with
  | refl n => exact Nat.le_refl _
  | step n p m o ho hp _ ih => exact Nat.le_trans ih (Nat.le_of_lt (hw n o ho p hp))

theorem anc_reach (objs : List Obj) (f : Nat) : ∀ n m, m ∈ anc objs f n → Reach objs n m := by
  induction f with
  | zero => intro n m h; cases h
  | succ f ih =>
    intro n m h
    rw [anc, List.mem_cons] at h
    rcases h with rfl | h
    · exact .refl _
    · obtain ⟨p, hp, hm⟩ := List.mem_flatMap.1 h
      cases ho : objs[n]? with
      | none => rw [ho] at hp; cases hp
      | some o =>
        rw [ho] at hp
        exact .step n p m o ho hp (ih p m hm)

theorem reach_anc {objs : List Obj} (hw : ∀ (n : Nat) (o : Obj), objs[n]? = some o → ∀ p ∈ o.parents, p < n) {n m : Nat} (h : Reach objs n m) :
    ∀ f, n < f → m ∈ anc objs f n := by
  induction h with
  | refl n =>
    intro f hf
    obtain ⟨f, rfl⟩ : ∃ k, f = k + 1 := ⟨f - 1, by omega⟩
    simp [anc]
  | step n p m o ho hp _ ih =>
    intro f hf
    obtain ⟨f, rfl⟩ : ∃ k, f = k + 1 := ⟨f - 1, by omega⟩
    rw [anc, List.mem_cons]
    right
    rw [List.mem_flatMap]
    have := hw n o ho p hp
    exact ⟨p, by rw [ho]; exact hp, ih f (by omega)⟩

theorem mem_ancestors {objs : List Obj} (hw : ∀ (n : Nat) (o : Obj), objs[n]? = some o → ∀ p ∈ o.parents, p < n) (n m : Nat) :
    m ∈ ancestors objs n ↔ Reach objs n m :=
  ⟨anc_reach objs _ n m, fun h => reach_anc hw h _ (by omega)⟩

/-- When nothing is on one side only, the two branches are at the same commit. -/
theorem symmetric_nil (r : Repo) (hw : WF r) (a b : Nat) : symmetric r a b = [] ↔ a = b := by
  unfold symmetric
  rw [List.append_eq_nil_iff, List.filter_eq_nil_iff, List.filter_eq_nil_iff]
  constructor
  · rintro ⟨h1, h2⟩
    have h3 := h1 a ((mem_ancestors hw.older a a).2 (.refl a))
    have h4 := h2 b ((mem_ancestors hw.older b b).2 (.refl b))
    simp only [decide_not, Bool.not_eq_true', decide_eq_false_iff_not, not_not, mem_ancestors hw.older] at h3 h4
    have := reach_le hw.older h3
    have := reach_le hw.older h4
    omega
  · rintro rfl
    simp

/-! ## Nothing is lost -/

/-- Commits stay, and branches move to descendants, here and on the remote; branches with other names stay as they are. -/
structure Forward (r r' : Repo) (names : List String) : Prop where
  kept : ∃ l, r'.objs = r.objs ++ l
  branches : ∀ b n, r.branches b = some n → ∃ m, r'.branches b = some m ∧ Reach r'.objs m n
  remote : ∀ b n, r.remote b = some n → ∃ m, r'.remote b = some m ∧ Reach r'.objs m n
  others : ∀ b, b ∉ names → r'.branches b = r.branches b ∧ r'.remote b = r.remote b

theorem Forward.refl (r r' : Repo) (names : List String) (h1 : r'.objs = r.objs) (h2 : r'.branches = r.branches) (h3 : r'.remote = r.remote) :
    Forward r r' names :=
  ⟨⟨[], by rw [h1, List.append_nil]⟩, fun b n h => ⟨n, by rw [h2, h], .refl n⟩, fun b n h => ⟨n, by rw [h3, h], .refl n⟩,
    fun b _ => ⟨by rw [h2], by rw [h3]⟩⟩

theorem Forward.trans {r r' r'' : Repo} {names : List String} (h : Forward r r' names) (h' : Forward r' r'' names) : Forward r r'' names := by
  obtain ⟨l, hl⟩ := h.kept
  obtain ⟨l', hl'⟩ := h'.kept
  refine ⟨⟨l ++ l', by rw [hl', hl, List.append_assoc]⟩, ?_, ?_, fun b hb => ?_⟩
  · intro b n hb
    obtain ⟨m, h1, h2⟩ := h.branches b n hb
    obtain ⟨k, h3, h4⟩ := h'.branches b m h1
    exact ⟨k, h3, h4.trans (by rw [hl']; exact h2.mono l')⟩
  · intro b n hb
    obtain ⟨m, h1, h2⟩ := h.remote b n hb
    obtain ⟨k, h3, h4⟩ := h'.remote b m h1
    exact ⟨k, h3, h4.trans (by rw [hl']; exact h2.mono l')⟩
  · have h1 := h.others b hb
    have h2 := h'.others b hb
    exact ⟨h2.1.trans h1.1, h2.2.trans h1.2⟩

theorem forward_commit (r : Repo) (names : List String) (hn : r.head ∈ names) : Forward r (commit r) names := by
  refine ⟨⟨_, rfl⟩, ?_, fun b n h => ⟨n, h, .refl n⟩, ?_⟩
  · intro b n h
    by_cases hb : b = r.head
    · refine ⟨r.objs.length, by simp [commit, update, hb], ?_⟩
      refine .step _ n n ⟨r.index, (r.branches r.head).toList⟩ (by simp [commit]) ?_ (.refl n)
      rw [← hb, h]
      simp
    · exact ⟨n, by simp [commit, update, hb, h], .refl n⟩
  · intro b hb
    have : b ≠ r.head := fun h => hb (h ▸ hn)
    exact ⟨by simp [commit, update, this], rfl⟩

theorem wf_commit (r : Repo) (hw : WF r) : WF (commit r) := by
  have hl : (commit r).objs.length = r.objs.length + 1 := by simp [commit]
  refine ⟨?_, ?_, ?_, ?_⟩
  · intro n o ho p hp
    by_cases hn : n < r.objs.length
    · exact hw.older n o (by simpa [commit, List.getElem?_append_left hn] using ho) p hp
    · have h1 : n < r.objs.length + 1 := by rw [← hl]; exact (List.getElem?_eq_some_iff.1 ho).1
      obtain rfl : n = r.objs.length := by omega
      simp only [commit, List.getElem?_concat_length, Option.some.injEq] at ho
      rw [← ho] at hp
      have : r.branches r.head = some p := by simpa using hp
      exact hw.branches _ p this
  · intro b n h
    rw [hl]
    by_cases hb : b = r.head
    · simp [commit, update, hb] at h
      omega
    · simp only [commit, update, if_neg hb] at h
      have := hw.branches b n h
      omega
  · intro b n h
    rw [hl]
    have := hw.seen b n h
    omega
  · intro b n h
    rw [hl]
    have := hw.remote b n h
    omega

theorem push_cases (r : Repo) (b : String) : push r b = r ∨
    ∃ n, r.branches b = some n ∧ (∀ m, r.remote b = some m → m ∈ ancestors r.objs n) ∧
      push r b = { r with remote := update r.remote b (some n), seen := update r.seen b (some n) } := by
  unfold push
  cases hn : r.branches b with
  | none => exact .inl rfl
  | some n =>
    cases hm : r.remote b with
    | none => exact .inr ⟨n, rfl, by simp, rfl⟩
    | some m =>
      dsimp only
      split_ifs with h
      · exact .inr ⟨n, rfl, by simpa using h, rfl⟩
      · exact .inl rfl

theorem forward_push (r : Repo) (b : String) (names : List String) (hn : b ∈ names) : Forward r (push r b) names := by
  rcases push_cases r b with h | ⟨n, h1, h2, h⟩
  · rw [h]; exact .refl r r names rfl rfl rfl
  · rw [h]
    refine ⟨⟨[], by simp⟩, fun c k hc => ⟨k, hc, .refl k⟩, ?_, ?_⟩
    · intro c k hc
      by_cases hb : c = b
      · subst hb
        exact ⟨n, by simp [update], anc_reach _ _ _ _ (h2 k hc)⟩
      · exact ⟨k, by simp [update, hb, hc], .refl k⟩
    · intro c hc
      have : c ≠ b := fun h => hc (h ▸ hn)
      exact ⟨rfl, by simp [update, this]⟩

/-- **C116** However a run ends, no commit is taken away from a branch, here or on the remote, and only the branch of the developer
and that of the results are changed. -/
theorem C116_forward (host : Host) (flow readme : String → String → String) (r : Repo) :
    Forward r (run host flow readme r).repo [r.head, "vfc_ci_" ++ r.head] := by
  show Forward r _ [r.head, ciName r.head]
  have h0 : Forward r (fetch r) [r.head, ciName r.head] := .refl _ _ _ rfl rfl rfl
  have hw : Forward r (workflow host flow (fetch r)) [r.head, ciName r.head] :=
    h0.trans ((Forward.refl (fetch r) (addAll (write (fetch r) host.file (flow r.head (ciName r.head)))) _ rfl rfl rfl).trans
      (forward_commit _ _ (by simp [addAll, write, fetch])))
  unfold run
  dsimp only
  split_ifs with h1
  · exact h0
  · split
    · split
      · exact h0
      · split_ifs with h2 h3
        · exact h0
        · exact hw
        · have hhead : (workflow host flow (fetch r)).head = r.head := rfl
          rw [hhead]
          refine (hw.trans (forward_push _ r.head _ (by simp))).trans ?_
          unfold makeCi
          dsimp only
          split_ifs
          · exact .refl _ _ _ rfl rfl rfl
          · refine Forward.trans (r' := commit { write { push (workflow host flow (fetch r)) r.head with head := ciName r.head, index := [] }
              "README.md" (readme r.head (ciName r.head)) with index := [("README.md", readme r.head (ciName r.head))] }) ?_ ?_
            · exact (Forward.refl (push (workflow host flow (fetch r)) r.head)
                ({ write { push (workflow host flow (fetch r)) r.head with head := ciName r.head, index := [] }
                  "README.md" (readme r.head (ciName r.head)) with index := [("README.md", readme r.head (ciName r.head))] } : Repo)
                _ rfl rfl rfl).trans (forward_commit _ _ (List.mem_cons_of_mem _ List.mem_cons_self))
            · exact (forward_push _ (ciName r.head) _ (by simp)).trans (.refl _ _ _ rfl rfl rfl)
    · exact h0

/-- **C116** A run that the checks refuse changes nothing but what is known of the remote. -/
theorem C116_refused (host : Host) (flow readme : String → String → String) (r r' : Repo) (h : run host flow readme r = .refused r') :
    r' = { r with seen := r'.seen } := by
  have key : r' = fetch r := by
    unfold run at h
    dsimp only at h
    split_ifs at h with h1
    · exact (Result.refused.inj h).symm
    · split at h
      · split at h
        · exact (Result.refused.inj h).symm
        · split_ifs at h with h2 h3
          · exact (Result.refused.inj h).symm
          · unfold makeCi at h
            dsimp only at h
            split_ifs at h
      · exact (Result.refused.inj h).symm
  rw [key]
  rfl

theorem wf_fetch (r : Repo) (hw : WF r) : WF (fetch r) :=
  ⟨hw.older, hw.branches, fun b n h => by
    simp only [fetch] at h
    cases hh : r.remote b with
    | none => rw [hh] at h; exact hw.seen b n h
    | some m => rw [hh] at h; exact hw.remote b n (hh.trans h), hw.remote⟩

theorem clean_tree (r : Repo) (h : dirty r = false) (p : String) : (treeOf r (r.branches r.head)).get p = r.index.get p := by
  unfold dirty at h
  rw [Bool.or_eq_false_iff, List.any_eq_false] at h
  by_contra hne
  by_cases h1 : (treeOf r (r.branches r.head)).get p = none
  · obtain ⟨e, he, rfl⟩ := get_mem r.index p fun h2 => hne (h1.trans h2.symm)
    exact h.1 e (List.mem_append_right _ he) (by simpa using hne)
  · obtain ⟨e, he, rfl⟩ := get_mem _ p h1
    exact h.1 e (List.mem_append_left _ he) (by simpa using hne)

theorem clean_work (r : Repo) (h : dirty r = false) (p : String) (hp : r.index.get p ≠ none) : r.work.get p = r.index.get p := by
  unfold dirty at h
  rw [Bool.or_eq_false_iff, List.any_eq_false, List.any_eq_false] at h
  obtain ⟨e, he, rfl⟩ := get_mem _ p hp
  simpa using h.2 e he

/-- **C116** A run that is not refused starts from tracked files without changes and from a branch that is where the remote is known
to be after a fetch. -/
theorem C116_checked (host : Host) (flow readme : String → String → String) (r : Repo) (hw : WF r)
    (h : ∀ r', run host flow readme r ≠ .refused r') : (∀ p, r.index.get p ≠ none → r.work.get p = r.index.get p) ∧
      ∃ tip up, r.branches r.head = some tip ∧ (∀ p, (treeOf r (some tip)).get p = r.index.get p) ∧
        r.upstream r.head = some up ∧ (r.remote up = some tip ∨ r.remote up = none ∧ r.seen up = some tip) := by
  have hwf := wf_fetch r hw
  have hd : dirty (fetch r) = false := by
    by_contra hd
    refine h (fetch r) ?_
    unfold run
    dsimp only
    rw [if_pos (by simpa using hd)]
  refine ⟨clean_work (fetch r) hd, ?_⟩
  have hrun : run host flow readme r ≠ .refused (fetch r) := h _
  unfold run at hrun
  dsimp only at hrun
  rw [if_neg (by rw [hd]; decide)] at hrun
  cases hb : r.branches r.head with
  | none =>
    rw [show (fetch r).branches (fetch r).head = none from hb] at hrun
    exact absurd rfl hrun
  | some tip =>
    rw [show (fetch r).branches (fetch r).head = some tip from hb] at hrun
    cases hu : r.upstream r.head with
    | none =>
      rw [show (fetch r).upstream (fetch r).head = none from hu] at hrun
      exact absurd rfl hrun
    | some up =>
      rw [show (fetch r).upstream (fetch r).head = some up from hu] at hrun
      dsimp only at hrun
      cases hs : (fetch r).seen up with
      | none =>
        rw [hs] at hrun
        exact absurd rfl hrun
      | some o =>
        rw [hs] at hrun
        dsimp only at hrun
        have ho : tip = o := by
          refine (symmetric_nil _ hwf tip o).1 ?_
          by_contra hc
          rw [if_pos hc] at hrun
          exact hrun rfl
        subst ho
        refine ⟨tip, up, rfl, fun p => hb ▸ clean_tree (fetch r) hd p, rfl, ?_⟩
        simp only [fetch] at hs
        cases hx : r.remote up with
        | none => rw [hx] at hs; exact .inr ⟨rfl, hs⟩
        | some k => rw [hx] at hs; exact .inl hs

/-! ## A run that is finished -/

theorem ciName_ne (dev : String) : ciName dev ≠ dev := by
  intro h
  have := congrArg String.length h
  rw [ciName, String.length_append] at this
  have h7 : "vfc_ci_".length = 7 := by decide
  omega

/-- The tree that is committed with the workflow. -/
def flowTree (host : Host) (flow : String → String → String) (r : Repo) : Tree :=
  (addAll (write (fetch r) host.file (flow r.head (ciName r.head)))).index

theorem flowTree_get (host : Host) (flow : String → String → String) (r : Repo) (p : String) :
    (flowTree host flow r).get p = if (r.index.get p).isSome || !r.ignored p then
      (if p = host.file then some (flow r.head (ciName r.head)) else r.work.get p) else none := by
  unfold flowTree addAll
  rw [get_filter fun y => ((write (fetch r) host.file (flow r.head (ciName r.head))).index.get y).isSome ||
    !(write (fetch r) host.file (flow r.head (ciName r.head))).ignored y]
  show (if (r.index.get p).isSome || !r.ignored p then Tree.get (r.work.set host.file _) p else none) = _
  rw [get_set]

/-- What the checks ask of a repository, and what the two pushes do. -/
theorem run_done (host : Host) (flow readme : String → String → String) (r : Repo) (hw : WF r) (tip : Nat)
    (hd : dirty (fetch r) = false) (hb : r.branches r.head = some tip) (hu : r.upstream r.head = some r.head)
    (hr : r.remote r.head = some tip) (hi : r.ignored host.file = false) :
    ∃ r', run host flow readme r = .done r' ∧ r'.head = r.head ∧
      r'.objs = r.objs ++ [⟨flowTree host flow r, [tip]⟩, ⟨[("README.md", readme r.head (ciName r.head))], (r.branches (ciName r.head)).toList⟩] ∧
      r'.branches = update (update r.branches r.head (some r.objs.length)) (ciName r.head) (some (r.objs.length + 1)) ∧
      (∀ b, b ≠ ciName r.head → r'.remote b = update r.remote r.head (some r.objs.length) b) ∧
      r'.remote (ciName r.head) = (match r.remote (ciName r.head) with
        | none => some (r.objs.length + 1)
        | some m => if m ∈ ancestors r'.objs (r.objs.length + 1) then some (r.objs.length + 1) else some m) ∧
      r'.index = flowTree host flow r ∧
      r'.work = flowTree host flow r ++ ((r.work.set host.file (flow r.head (ciName r.head))).set "README.md" (readme r.head (ciName r.head))).filter
        fun e => (Tree.get [("README.md", readme r.head (ciName r.head))] e.1).isNone := by
  have hne := ciName_ne r.head
  have hseen : (fetch r).seen r.head = some tip := by simp [fetch, hr]
  have hwf := wf_fetch r hw
  have hsym : symmetric (fetch r) tip tip = [] := (symmetric_nil _ hwf tip tip).2 rfl
  have hW : workflow host flow (fetch r) = { fetch r with
      work := r.work.set host.file (flow r.head (ciName r.head)), index := flowTree host flow r
      objs := r.objs ++ [⟨flowTree host flow r, [tip]⟩], branches := update r.branches r.head (some r.objs.length) } := by
    simp [workflow, commit, addAll, write, fetch, flowTree, hb]
  have hanc : tip ∈ ancestors (r.objs ++ [⟨flowTree host flow r, [tip]⟩]) r.objs.length := by
    have h1 := hw.branches _ _ hb
    obtain ⟨k, hk⟩ : ∃ k, r.objs.length = k + 1 := ⟨r.objs.length - 1, by omega⟩
    unfold ancestors
    rw [anc, List.getElem?_concat_length, List.mem_cons]
    right
    simp only [Option.map_some, Option.getD_some, List.flatMap_cons, List.flatMap_nil, List.append_nil]
    rw [hk, anc]
    exact List.mem_cons_self
  have hP : push (workflow host flow (fetch r)) r.head = { workflow host flow (fetch r) with
      remote := update r.remote r.head (some r.objs.length), seen := update (fetch r).seen r.head (some r.objs.length) } := by
    unfold push
    have e1 : (workflow host flow (fetch r)).branches r.head = some r.objs.length := by rw [hW]; simp [update]
    have e2 : (workflow host flow (fetch r)).remote r.head = some tip := hr
    have e3 : (workflow host flow (fetch r)).objs = r.objs ++ [⟨flowTree host flow r, [tip]⟩] := by rw [hW]
    rw [e1, e2]
    dsimp only
    rw [e3, if_pos hanc]
    rfl
  have hidx : (flowTree host flow r).isEmpty = false := by
    have := flowTree_get host flow r host.file
    rw [hi] at this
    cases h : flowTree host flow r with
    | nil => rw [h] at this; simp [Tree.get] at this
    | cons => rfl
  have hrun : run host flow readme r = makeCi readme r.head (push (workflow host flow (fetch r)) r.head) := by
    unfold run
    dsimp only
    rw [if_neg (by rw [hd]; decide)]
    have e1 : (fetch r).branches (fetch r).head = some tip := hb
    have e2 : (fetch r).upstream (fetch r).head = some r.head := hu
    rw [e1, e2]
    dsimp only
    rw [hseen]
    dsimp only
    rw [hsym, if_neg (by simp)]
    have e3 : (workflow host flow (fetch r)).head = r.head := rfl
    rw [e3, if_neg (by simp)]
  have hmake : makeCi readme r.head (push (workflow host flow (fetch r)) r.head) = .done (checkout (push (commit
      { write { push (workflow host flow (fetch r)) r.head with head := ciName r.head, index := [] }
        "README.md" (readme r.head (ciName r.head)) with index := [("README.md", readme r.head (ciName r.head))] }) (ciName r.head)) r.head) := by
    unfold makeCi
    dsimp only
    rw [if_neg]
    rw [hP, hW]
    simp [hidx]
  obtain ⟨q, hq⟩ : ∃ q, q = commit { write { push (workflow host flow (fetch r)) r.head with head := ciName r.head, index := [] }
        "README.md" (readme r.head (ciName r.head)) with index := [("README.md", readme r.head (ciName r.head))] } := ⟨_, rfl⟩
  rw [← hq] at hmake
  have qobjs : q.objs = r.objs ++ [⟨flowTree host flow r, [tip]⟩,
      ⟨[("README.md", readme r.head (ciName r.head))], (r.branches (ciName r.head)).toList⟩] := by
    rw [hq, hP, hW]
    simp [commit, write, update, hne]
  have qbr : q.branches = update (update r.branches r.head (some r.objs.length)) (ciName r.head) (some (r.objs.length + 1)) := by
    rw [hq, hP, hW]
    simp [commit, write]
  have qrem : q.remote = update r.remote r.head (some r.objs.length) := by
    rw [hq, hP, hW]
    rfl
  have qwork : q.work = (r.work.set host.file (flow r.head (ciName r.head))).set "README.md" (readme r.head (ciName r.head)) := by
    rw [hq, hP, hW]
    rfl
  have qidx : q.index = [("README.md", readme r.head (ciName r.head))] := by
    rw [hq]
    rfl
  obtain ⟨pobjs, pbr, pwork, pidx⟩ : (push q (ciName r.head)).objs = q.objs ∧ (push q (ciName r.head)).branches = q.branches ∧
      (push q (ciName r.head)).work = q.work ∧ (push q (ciName r.head)).index = q.index := by
    rcases push_cases q (ciName r.head) with h | ⟨n, -, -, h⟩ <;> rw [h] <;> exact ⟨rfl, rfl, rfl, rfl⟩
  have ptree : treeOf (push q (ciName r.head)) ((push q (ciName r.head)).branches r.head) = flowTree host flow r := by
    rw [pbr, qbr]
    simp only [update, if_neg (Ne.symm hne), if_true, treeOf, pobjs, qobjs]
    simp
  refine ⟨_, hrun.trans hmake, rfl, ?_, ?_, ?_, ?_, ?_, ?_⟩
  · show (push q (ciName r.head)).objs = _
    rw [pobjs, qobjs]
  · show (push q (ciName r.head)).branches = _
    rw [pbr, qbr]
  · intro b hbn
    show (push q (ciName r.head)).remote b = _
    rw [← qrem]
    rcases push_cases q (ciName r.head) with h | ⟨n, -, -, h⟩ <;> rw [h]
    simp [update, hbn]
  · show (push q (ciName r.head)).remote (ciName r.head) = (match r.remote (ciName r.head) with
        | none => some (r.objs.length + 1)
        | some m => if m ∈ ancestors (push q (ciName r.head)).objs (r.objs.length + 1) then some (r.objs.length + 1) else some m)
    rw [pobjs]
    unfold push
    have e1 : q.branches (ciName r.head) = some (r.objs.length + 1) := by rw [qbr]; simp [update]
    have e2 : q.remote (ciName r.head) = r.remote (ciName r.head) := by rw [qrem]; simp [update, hne]
    rw [e1, e2]
    cases hm : r.remote (ciName r.head) with
    | none => simp [update]
    | some m =>
      dsimp only
      split_ifs
      · simp [update]
      · rw [e2, hm]
  · exact ptree
  · show treeOf (push q (ciName r.head)) ((push q (ciName r.head)).branches r.head) ++ (push q (ciName r.head)).work.filter _ = _
    rw [ptree, pwork, qwork, pidx, qidx]

/-- **C116** (partial: the setup is done once, from a clean branch that the remote has.)  The workflow is committed on the branch
and pushed, the branch of the results is made with a commit without parents that has the README as its only file, and pushed, and
the branch is checked out again.  The commit on the branch takes what it had, the workflow, and every file of the work tree that
is not ignored. -/
theorem C116_setup_partial (host : Host) (file : String)
    (hf : file = match host with | .github => ".github/workflows/vfc_test_workflow.yml" | .gitlab => ".gitlab-ci.yml")
    (flow readme : String → String → String) (r : Repo) (hw : WF r) (tip : Nat)
    (hd : dirty (fetch r) = false) (hb : r.branches r.head = some tip) (hu : r.upstream r.head = some r.head)
    (hr : r.remote r.head = some tip) (hi : r.ignored file = false)
    (hc : r.branches ("vfc_ci_" ++ r.head) = none) (hcr : r.remote ("vfc_ci_" ++ r.head) = none) :
    ∃ r' n m tree, run host flow readme r = .done r' ∧ r'.head = r.head ∧ dirty r' = false ∧
      r'.branches r.head = some n ∧ r'.remote r.head = some n ∧ r'.objs[n]? = some ⟨tree, [tip]⟩ ∧
      r'.branches ("vfc_ci_" ++ r.head) = some m ∧ r'.remote ("vfc_ci_" ++ r.head) = some m ∧
      r'.objs[m]? = some ⟨[("README.md", readme r.head ("vfc_ci_" ++ r.head))], []⟩ ∧
      (∀ p, tree.get p = if p = file then some (flow r.head ("vfc_ci_" ++ r.head))
        else if (treeOf r (some tip)).get p ≠ none then (treeOf r (some tip)).get p
        else if r.ignored p then none else r.work.get p) ∧
      ∀ p, p ≠ file → p ≠ "README.md" ∨ r.ignored p = false ∨ r.index.get p ≠ none → r'.work.get p = r.work.get p := by
  obtain rfl : file = host.file := by rw [hf]; cases host <;> rfl
  obtain ⟨r', h1, h2, h3, h4, h5, h6, h7, h8⟩ := run_done host flow readme r hw tip hd hb hu hr hi
  have hne := ciName_ne r.head
  have hc' : r.branches (ciName r.head) = none := hc
  have hcr' : r.remote (ciName r.head) = none := hcr
  have hti : ∀ p, (treeOf r (some tip)).get p = r.index.get p := fun p => hb ▸ clean_tree (fetch r) hd p
  have hwi : ∀ p, r.index.get p ≠ none → r.work.get p = r.index.get p := fun p => clean_work (fetch r) hd p
  have hbr : r'.branches r.head = some r.objs.length := by rw [h4]; simp [update, Ne.symm hne]
  have hobj : r'.objs[r.objs.length]? = some ⟨flowTree host flow r, [tip]⟩ := by rw [h3]; simp
  have htree : treeOf r' (r'.branches r'.head) = flowTree host flow r := by
    rw [h2, hbr]
    simp [treeOf, hobj]
  refine ⟨r', r.objs.length, r.objs.length + 1, flowTree host flow r, h1, h2, ?_, hbr, ?_, hobj, ?_, ?_, ?_, ?_, ?_⟩
  · unfold dirty
    rw [htree, h7, Bool.or_eq_false_iff, List.any_eq_false, List.any_eq_false]
    refine ⟨fun e _ => by simp, fun e he => ?_⟩
    rw [h8, get_append]
    have : (flowTree host flow r).get e.1 ≠ none := fun h => by
      unfold Tree.get at h
      rw [Option.map_eq_none_iff, List.find?_eq_none] at h
      exact h e he (by simp)
    cases h : (flowTree host flow r).get e.1 with
    | none => exact absurd h this
    | some x => simp
  · rw [h5 _ (Ne.symm hne)]
    simp [update]
  · rw [h4]
    simp [update, ciName]
  · show r'.remote (ciName r.head) = _
    rw [h6, hcr']
  · rw [h3, hc']
    simp [ciName]
  · intro p
    rw [flowTree_get, hti]
    by_cases hp : p = host.file
    · subst hp
      simp [hi, ciName]
    · simp only [if_neg hp]
      by_cases hq : r.index.get p = none
      · cases hg : r.ignored p <;> simp [hq]
      · rw [if_pos hq, hwi p hq, if_pos]
        cases h : r.index.get p with
        | none => exact absurd h hq
        | some x => rfl
  · intro p hp hq
    rw [h8, get_append, flowTree_get]
    rw [get_filter fun y => (Tree.get [("README.md", readme r.head (ciName r.head))] y).isNone, get_set, get_set]
    simp only [if_neg hp]
    by_cases hp2 : p = "README.md"
    · subst hp2
      have ha : ((r.index.get "README.md").isSome || !r.ignored "README.md") = true := by
        rcases hq with h | h | h
        · exact absurd rfl h
        · simp [h]
        · cases hx : r.index.get "README.md" with
          | none => exact absurd hx h
          | some x => rfl
      rw [if_pos ha, if_neg (by simp [Tree.get])]
      simp
    · have hk : (Tree.get [("README.md", readme r.head (ciName r.head))] p).isNone = true := by simp [Tree.get, Ne.symm hp2]
      rw [if_neg hp2, if_pos hk]
      split_ifs <;> simp

/-- **C116** When every file of the work tree is tracked or ignored, the workflow is all that the commit brings. -/
theorem C116_only_workflow_partial (host : Host) (file : String)
    (hf : file = match host with | .github => ".github/workflows/vfc_test_workflow.yml" | .gitlab => ".gitlab-ci.yml")
    (flow readme : String → String → String) (r : Repo) (hw : WF r) (tip : Nat)
    (hd : dirty (fetch r) = false) (hb : r.branches r.head = some tip) (hu : r.upstream r.head = some r.head)
    (hr : r.remote r.head = some tip) (hi : r.ignored file = false)
    (hc : r.branches ("vfc_ci_" ++ r.head) = none) (hcr : r.remote ("vfc_ci_" ++ r.head) = none)
    (hall : ∀ p, r.work.get p ≠ none → (treeOf r (some tip)).get p ≠ none ∨ r.ignored p = true) :
    ∃ r' n tree, run host flow readme r = .done r' ∧ r'.remote r.head = some n ∧ r'.objs[n]? = some ⟨tree, [tip]⟩ ∧
      ∀ p, tree.get p = if p = file then some (flow r.head ("vfc_ci_" ++ r.head)) else (treeOf r (some tip)).get p := by
  obtain ⟨r', n, m, tree, h1, -, -, -, h2, h3, -, -, -, h4, -⟩ := C116_setup_partial host file hf flow readme r hw tip hd hb hu hr hi hc hcr
  refine ⟨r', n, tree, h1, h2, h3, fun p => ?_⟩
  rw [h4 p]
  split_ifs with hp hq hg
  · rfl
  · rfl
  · exact (not_not.1 hq).symm
  · rw [not_not.1 hq]
    by_contra hx
    rcases hall p hx with h | h
    · exact hq h
    · exact hg h

/-! ## Witnesses -/

/-- A repository with one commit on `main`, that the remote has. -/
def sample : Repo :=
  { objs := [⟨[("a.c", "1")], []⟩], head := "main", branches := fun b => if b = "main" then some 0 else none
    index := [("a.c", "1")], work := [("a.c", "1"), ("a.o", "2")], ignored := fun p => p == "a.o"
    upstream := fun b => if b = "main" then some "main" else none, seen := fun _ => none
    remote := fun b => if b = "main" then some 0 else none }

def text (dev ci : String) : String := dev ++ " " ++ ci

theorem sample_wf : WF sample := by
  have hb : ∀ b n, (if b = "main" then some 0 else none) = some n → n < 1 := by
    intro b n h
    split_ifs at h
    cases h
    decide
  refine ⟨?_, fun b n h => hb b n h, fun b n h => (nomatch h), fun b n h => hb b n h⟩
  intro n o h
  cases n with
  | zero => cases h; simp
  | succ n => simp [sample] at h

example : ∃ r' n tree, run .github text text sample = .done r' ∧ r'.remote "main" = some n ∧ r'.objs[n]? = some ⟨tree, [0]⟩ ∧
    ∀ p, tree.get p = if p = ".github/workflows/vfc_test_workflow.yml" then some "main vfc_ci_main" else (Tree.get [("a.c", "1")] p) :=
  C116_only_workflow_partial .github _ rfl text text sample sample_wf 0 (by decide +kernel) rfl rfl rfl rfl rfl rfl fun p hp => by
    obtain ⟨e, he, rfl⟩ := get_mem _ p hp
    rcases List.mem_pair.1 he with rfl | rfl
    · exact .inl (by decide +kernel)
    · exact .inr (by decide +kernel)

/-- An untracked file beside the sources. -/
def untracked : Repo := { sample with work := [("a.c", "1"), ("secret", "3")] }

/-- **C116** is false: a work tree with an untracked file passes the check, and the file is pushed. -/
theorem C116_untracked_wrong : dirty (fetch untracked) = false ∧
    ∃ n o, (run .github text text untracked).repo.remote "main" = some n ∧ (run .github text text untracked).repo.objs[n]? = some o ∧
      o.tree.get "secret" = some "3" :=
  ⟨by decide +kernel, 1, _, by decide +kernel, rfl, by decide +kernel⟩

/-- A branch of results with a result, on which the setup is run again. -/
def again : Repo :=
  { sample with
    objs := [⟨[("a.c", "1")], []⟩, ⟨[("README.md", "main vfc_ci_main"), ("vfcruns/1.hd5", "r")], []⟩]
    branches := fun b => if b = "main" then some 0 else if b = "vfc_ci_main" then some 1 else none
    remote := fun b => if b = "main" then some 0 else if b = "vfc_ci_main" then some 1 else none }

/-- **C116** is false: a second run makes no new branch; it takes the results off the tip of the one that is there. -/
theorem C116_rerun_wrong : ∃ m n o o', again.remote "vfc_ci_main" = some m ∧ again.objs[m]? = some o ∧ o.tree.get "vfcruns/1.hd5" = some "r" ∧
    (run .github text text again).repo.remote "vfc_ci_main" = some n ∧ (run .github text text again).repo.objs[n]? = some o' ∧
      o'.tree.get "vfcruns/1.hd5" = none :=
  ⟨1, 3, _, _, by decide +kernel, rfl, by decide +kernel, by decide +kernel, rfl, by decide +kernel⟩

/-- A clone in which the branch of results is on the remote only. -/
def stale : Repo := { again with branches := fun b => if b = "main" then some 0 else none }

/-- **C116** is false: in a clone without the branch of results the run is finished, though the remote refused its branch. -/
theorem C116_stale_wrong : (∃ r', run .github text text stale = .done r') ∧
    (run .github text text stale).repo.branches "vfc_ci_main" = some 3 ∧ (run .github text text stale).repo.remote "vfc_ci_main" = some 1 :=
  ⟨⟨_, rfl⟩, by decide +kernel, by decide +kernel⟩

/-- A README that is not tracked. -/
def notes : Repo := { sample with work := [("a.c", "1"), ("README.md", "mine")], ignored := fun p => p == "README.md" }

/-- **C116** is false: a README that git ignores is lost. -/
theorem C116_readme_wrong : notes.work.get "README.md" = some "mine" ∧ (run .github text text notes).repo.work.get "README.md" = none :=
  ⟨by decide +kernel, by decide +kernel⟩

/-- A branch that tracks a branch of another name. -/
def other : Repo :=
  { sample with
    upstream := fun b => if b = "main" then some "trunk" else none
    remote := fun b => if b = "trunk" then some 0 else none }

/-- **C116** is false: when the upstream has another name the push fails after the commit is made. -/
theorem C116_upstream_wrong : (∃ r', run .github text text other = .failed r') ∧
    (run .github text text other).repo.branches "main" = some 1 ∧ (run .github text text other).repo.remote "trunk" = some 0 :=
  ⟨⟨_, rfl⟩, by decide +kernel, by decide +kernel⟩

example : ∃ tip up, sample.branches "main" = some tip ∧ sample.upstream "main" = some up ∧ sample.remote up = some tip := by
  obtain ⟨-, tip, up, h1, -, h2, h3⟩ := C116_checked .gitlab text text sample sample_wf fun r' h => by
    have : (match run .gitlab text text sample with | .refused _ => true | _ => false) = false := by decide +kernel
    rw [h] at this
    exact Bool.noConfusion this
  rcases h3 with h3 | ⟨-, h3⟩
  · exact ⟨tip, up, h1, h2, h3⟩
  · exact nomatch h3

example : ∃ r', run .gitlab text text { sample with work := [("a.c", "2")] } = .refused r' := ⟨_, rfl⟩

end Verif.Ci.Setup
