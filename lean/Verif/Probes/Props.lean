import Mathlib.Data.List.SplitOn
import Verif.Hash.Entries
import Verif.Probes.Model

/-! # C36: probes and the file of probes -/

namespace Verif.Probes
open Verif Verif.Fp Verif.Hash

instance : LawfulMonad Outcome := LawfulMonad.mk'
  (id_map := fun x => by cases x <;> rfl)
  (pure_bind := fun _ _ => rfl)
  (bind_assoc := fun x _ _ => by cases x <;> rfl)

/-- Addresses of allocated objects: distinct, not NULL, not 1. -/
structure Alloc (addr : Nat → Nat) : Prop where
  inj : Function.Injective addr
  valid : ∀ n, addr n ≠ 0 ∧ addr n ≠ 1

/-- The node a call asks for. -/
def Call.node (c : Call) : Node := ⟨genKey c.test c.var, c.value, c.threshold, c.mode⟩

/-- Names without the separator. -/
def Call.Clean (c : Call) : Prop := ',' ∉ c.test ∧ ',' ∉ c.var

theorem genKey_inj (a b a' b' : List Char) (ha : ',' ∉ a) (ha' : ',' ∉ a') (h : genKey a b = genKey a' b') : a = a' ∧ b = b' := by
  unfold genKey at h
  induction a generalizing a' with
  | nil =>
    rcases a' with _ | ⟨c, cs⟩
    · simpa using h
    · simp only [List.nil_append, List.cons_append, List.cons.injEq] at h
      rw [← h.1] at ha'; simp at ha'
  | cons c cs ih =>
    rcases a' with _ | ⟨d, ds⟩
    · simp only [List.nil_append, List.cons_append, List.cons.injEq] at h
      rw [h.1] at ha; simp at ha
    · simp only [List.cons_append, List.cons.injEq] at h
      obtain ⟨e1, e2⟩ := ih ds (by simp at ha; exact ha.2) (by simp at ha'; exact ha'.2) h.2
      exact ⟨by rw [h.1, e1], e2⟩

/-! ## Invariant of recording -/

structure Good (addr : Nat → Nat) (st : State) (cs : List Call) : Prop where
  inv : st.map.Inv
  bnd : st.map.Bnd cs.length
  count : st.count = cs.length
  nodes : st.heap.map Prod.snd = (cs.map Call.node).reverse
  addrs : st.heap.map Prod.fst = ((List.range cs.length).map addr).reverse
  ndel : st.map.ndel = 0
  path : st.map.Path
  entries : st.map.entries.Perm (st.heap.map fun x => (x.1, hash x.2.key))
  tomb : ∀ i, i < st.map.cap → (st.map.slots i).1 ≠ 1

theorem good_init (addr : Nat → Nat) : Good addr State.init [] where
  inv := inv_create
  bnd := ⟨le_of_eq (empty_cnt 3), Or.inl rfl⟩
  count := rfl
  nodes := rfl
  addrs := rfl
  ndel := rfl
  path := path_empty 3
  entries := by
    have : State.init.map.entries = [] := by
      unfold Map.entries Map.upto
      rw [List.map_eq_nil_iff, List.filter_eq_nil_iff]
      intro i _; simp [State.init, Map.create, Map.live, zeros]
    rw [this]; exact List.Perm.refl _
  tomb := fun i _ => by simp [State.init, Map.create, zeros]

namespace Good
variable {addr : Nat → Nat} {st : State} {cs : List Call}

theorem nodup (hA : Alloc addr) (h : Good addr st cs) : (st.heap.map Prod.fst).Nodup := by
  rw [h.addrs, List.nodup_reverse]
  exact List.Nodup.map hA.inj List.nodup_range

theorem entries_fst (h : Good addr st cs) : (st.map.entries.map Prod.fst).Perm (st.heap.map Prod.fst) := by
  have := h.entries.map Prod.fst
  rwa [List.map_map] at this

theorem entries_nodup (hA : Alloc addr) (h : Good addr st cs) : (st.map.entries.map Prod.fst).Nodup :=
  h.entries_fst.nodup_iff.2 (h.nodup hA)

theorem numProbes (h : Good addr st cs) (hL : cs.length ≤ 2 ^ 28) : Probes.numProbes st = cs.length := by
  have hl : st.map.entries.length = cs.length := by
    rw [h.entries.length_eq, List.length_map]
    have := congrArg List.length h.nodes
    simpa using this
  unfold Probes.numProbes
  rw [numItems_entries _ h.inv h.tomb h.ndel, hl, BitVec.toNat_ofNat]
  omega

end Good

theorem find_nodup (l : List (Nat × Node)) (hd : (l.map Prod.fst).Nodup) (x : Nat × Node) (hx : x ∈ l) :
    l.find? (fun y => y.1 == x.1) = some x := by
  induction l with
  | nil => simp at hx
  | cons y ys ih =>
    rw [List.map_cons, List.nodup_cons] at hd
    rcases List.mem_cons.1 hx with rfl | hx
    · simp
    · rw [List.find?_cons_of_neg]
      · exact ih hd.2 hx
      · simp only [beq_iff_eq]
        intro e; exact hd.1 (by rw [e]; exact List.mem_map_of_mem hx)

theorem Good.node_mem {addr : Nat → Nat} {st : State} {cs : List Call} (hA : Alloc addr) (h : Good addr st cs)
    (x : Nat × Node) (hx : x ∈ st.heap) : st.node x.1 = some x.2 := by
  unfold State.node; rw [find_nodup _ (h.nodup hA) x hx]; rfl

/-- One recording: refused only if the pair was recorded, otherwise the invariant holds. -/
theorem record_good (addr : Nat → Nat) (hA : Alloc addr) (st : State) (cs : List Call) (c : Call)
    (h : Good addr st cs) (hL : cs.length < 2 ^ 28) (hc : c.Clean) :
    (record addr st c = .exit ∧ ∃ d ∈ cs, d.node.key = c.node.key) ∨
    (∃ st', record addr st c = .ok st' ∧ Good addr st' (cs ++ [c]) ∧
      ∀ p n, st.map.get (hash c.node.key) = some p → st.node p = some n → n.key ≠ c.node.key) := by
  unfold record
  rw [if_neg hc.1, if_neg hc.2]
  simp only
  obtain ⟨i, hi⟩ := locate_total st.map (hash (genKey c.test c.var)) h.inv
  obtain ⟨p, hp⟩ : ∃ p, st.map.get (hash (genKey c.test c.var)) = some p := ⟨_, by unfold Map.get; rw [hi]; rfl⟩
  rw [hp]
  simp only
  -- the insertion
  have hnew : ∀ q ∈ st.map.entries, q.1 ≠ addr st.count := by
    intro q hq e
    have h1 : q.1 ∈ st.heap.map Prod.fst := h.entries_fst.mem_iff.1 (List.mem_map_of_mem hq)
    rw [h.addrs, e, List.mem_reverse, List.mem_map] at h1
    obtain ⟨k, hk, hk'⟩ := h1
    rw [List.mem_range] at hk
    have := hA.inj hk'
    rw [h.count] at this; omega
  obtain ⟨m, m1, m2, m3⟩ := insert_entries st.map (hash (genKey c.test c.var)) (addr st.count) (hA.valid _) h.inv (h.entries_nodup hA) hnew
  obtain ⟨m', n1, n2, n3⟩ := insert_inv st.map (hash (genKey c.test c.var)) (addr st.count) cs.length h.inv h.bnd hL
  rw [m1] at n1; cases n1
  have hgood : Good addr ⟨m, (addr st.count, ⟨genKey c.test c.var, c.value, c.threshold, c.mode⟩) :: st.heap, st.count + 1⟩ (cs ++ [c]) :=
    { inv := n2
      bnd := by rw [List.length_append]; exact n3
      count := by rw [List.length_append, ← h.count]; rfl
      nodes := by
        rw [List.map_append, List.reverse_append, List.map_cons, h.nodes]; rfl
      addrs := by
        rw [List.length_append, List.length_singleton, List.range_succ, List.map_append, List.reverse_append, List.map_cons, h.addrs, h.count]
        rfl
      entries := m2.trans (List.Perm.cons _ h.entries)
      ndel := (m3 h.tomb).2 h.ndel
      path := insert_path _ _ _ _ h.inv h.path m1
      tomb := (m3 h.tomb).1 }
  by_cases h0 : p = 0
  · right
    refine ⟨_, by rw [if_neg (by simpa using h0), Outcome.bind_ok, m1], hgood, ?_⟩
    intro q n hq hn
    have : p = q := by simpa using hp.symm.trans hq
    subst this; subst h0
    unfold State.node at hn
    rw [Option.map_eq_some_iff] at hn
    obtain ⟨x, hx, -⟩ := hn
    have hx1 := List.mem_of_find?_eq_some hx
    have hx2 := List.find?_some hx
    have : x.1 ∈ st.heap.map Prod.fst := List.mem_map_of_mem hx1
    rw [h.addrs, List.mem_reverse, List.mem_map] at this
    obtain ⟨k, -, hk⟩ := this
    simp only [beq_iff_eq] at hx2
    exact absurd (hk.trans hx2) (hA.valid k).1
  · rw [if_pos h0]
    have hent : (p, hash (genKey c.test c.var)) ∈ st.map.entries := by
      rcases get_entries st.map _ p hp with e | e | e
      · exact absurd e h0
      · exfalso
        unfold Map.get at hp
        rw [hi, Option.map_some, Option.some.injEq] at hp
        unfold Map.locate at hi
        exact h.tomb i (search_some _ _ _ _ hi).1 (hp.trans e)
      · exact e
    have hh := h.entries.mem_iff.1 hent
    rw [List.mem_map] at hh
    obtain ⟨x, hx, hxe⟩ := hh
    obtain ⟨e1, -⟩ := Prod.mk.inj hxe
    have hnode : st.node p = some x.2 := by rw [← e1]; exact h.node_mem hA x hx
    rw [hnode]
    simp only
    by_cases hk : genKey c.test c.var = x.2.key
    · left
      refine ⟨by rw [if_pos hk]; rfl, ?_⟩
      have h2 : x.2 ∈ st.heap.map Prod.snd := List.mem_map_of_mem hx
      rw [h.nodes, List.mem_reverse, List.mem_map] at h2
      obtain ⟨d, hd, hd'⟩ := h2
      exact ⟨d, hd, by rw [hd', ← hk]; rfl⟩
    · right
      refine ⟨_, by rw [if_neg hk, Outcome.bind_ok, m1], hgood, ?_⟩
      intro q n hq hn
      have : p = q := by simpa using hp.symm.trans hq
      subst this
      rw [hnode] at hn; cases hn
      exact fun e => hk e.symm

theorem run_snoc (addr : Nat → Nat) (cs : List Call) (c : Call) :
    run addr (cs ++ [c]) = run addr cs >>= fun st => record addr st c := by
  unfold run
  rw [List.foldlM_append]
  rcases List.foldlM (record addr) State.init cs with st | _ | _
  · simp only [List.foldlM, Outcome.bind_ok]
    rcases record addr st c with _ | _ | _ <;> rfl
  · rfl
  · rfl

theorem record_clean (addr : Nat → Nat) (st st' : State) (c : Call) (h : record addr st c = .ok st') : c.Clean := by
  unfold record at h
  by_cases h1 : ',' ∈ c.test
  · rw [if_pos h1] at h; cases h
  · by_cases h2 : ',' ∈ c.var
    · rw [if_neg h1, if_pos h2] at h; cases h
    · exact ⟨h1, h2⟩

theorem run_good (addr : Nat → Nat) (hA : Alloc addr) (cs : List Call) (hL : cs.length ≤ 2 ^ 28) (st : State)
    (h : run addr cs = .ok st) : Good addr st cs ∧ ∀ c ∈ cs, c.Clean := by
  induction cs using List.reverseRecOn generalizing st with
  | nil => cases h; exact ⟨good_init addr, by simp⟩
  | append_singleton cs c ih =>
    rw [List.length_append, List.length_singleton] at hL
    rw [run_snoc] at h
    rcases hr : run addr cs with st1 | _ | _
    · rw [hr, Outcome.bind_ok] at h
      obtain ⟨hg, hcl⟩ := ih (by omega) st1 hr
      have hc := record_clean addr st1 st c h
      refine ⟨?_, ?_⟩
      · rcases record_good addr hA st1 cs c hg (by omega) hc with ⟨e, -⟩ | ⟨st2, e, g, -⟩
        · rw [e] at h; cases h
        · rw [e] at h; cases h; exact g
      · intro d hd
        rcases List.mem_append.1 hd with hd | hd
        · exact hcl d hd
        · rw [List.mem_singleton.1 hd]; exact hc
    · rw [hr] at h; cases h
    · rw [hr] at h; cases h

/-- **C36, acceptance.**  Calls whose names have no separator and whose (test, variable) pairs
are distinct are all recorded, in any order and whatever the hashes; there is no undefined
behaviour, and the number of probes is that of the calls. -/
theorem C36_accepted (addr : Nat → Nat) (hA : Alloc addr) (cs : List Call) (hL : cs.length ≤ 2 ^ 28)
    (hc : ∀ c ∈ cs, ',' ∉ c.test ∧ ',' ∉ c.var) (hd : (cs.map fun c => (c.test, c.var)).Nodup) :
    ∃ st, run addr cs = .ok st ∧ numProbes st = cs.length := by
  have hrun : ∃ st, run addr cs = .ok st := by
    induction cs using List.reverseRecOn with
    | nil => exact ⟨_, rfl⟩
    | append_singleton cs c ih =>
      rw [List.length_append, List.length_singleton] at hL
      rw [List.map_append, List.nodup_append] at hd
      obtain ⟨st, hst⟩ := ih (by omega) (fun d hd => hc d (by simp [hd])) hd.1
      obtain ⟨hg, -⟩ := run_good addr hA cs (by omega) st hst
      rw [run_snoc, hst, Outcome.bind_ok]
      rcases record_good addr hA st cs c hg (by omega) (hc c (by simp)) with ⟨-, d, hdm, e⟩ | ⟨st', e, -⟩
      · exfalso
        have hi := genKey_inj _ _ _ _ (hc d (by simp [hdm])).1 (hc c (by simp)).1 e
        exact hd.2.2 (d.test, d.var) (List.mem_map.2 ⟨d, hdm, rfl⟩) (c.test, c.var) (by simp) (by rw [hi.1, hi.2])
      · exact ⟨st', e⟩
  obtain ⟨st, hst⟩ := hrun
  obtain ⟨hg, -⟩ := run_good addr hA cs hL st hst
  exact ⟨st, hst, hg.numProbes hL⟩

/-- **C36, separator.**  A name with the separator is refused, in any state. -/
theorem C36_comma (addr : Nat → Nat) (st : State) (c : Call) (h : ',' ∈ c.test ∨ ',' ∈ c.var) :
    record addr st c = .exit := by
  unfold record
  rcases h with h | h
  · rw [if_pos h]
  · split
    · rfl
    · rfl

/-- **C36, duplicates.**  Recording a pair again is refused, provided that no other recorded
pair has the same hash.  Missing from the full statement: pairs with equal hashes
(`C36_duplicate_wrong`). -/
theorem C36_duplicate_partial (addr : Nat → Nat) (hA : Alloc addr) (cs : List Call) (hL : cs.length ≤ 2 ^ 28) (st : State)
    (h : run addr cs = .ok st) (c d : Call) (hd : d ∈ cs) (h1 : c.test = d.test) (h2 : c.var = d.var)
    (hh : ∀ e ∈ cs, hash (e.test ++ ",".toList ++ e.var) = hash (c.test ++ ",".toList ++ c.var) →
      e.test = c.test ∧ e.var = c.var) :
    record addr st c = .exit := by
  obtain ⟨hg, hcl⟩ := run_good addr hA cs hL st h
  have hc : c.Clean := by unfold Call.Clean; rw [h1, h2]; exact hcl d hd
  have hkey : ∀ e : Call, e.test ++ ",".toList ++ e.var = e.node.key := fun e => by simp [Call.node, genKey]
  have hin : ∃ v, (v, hash c.node.key) ∈ st.map.entries := by
    have : d.node ∈ st.heap.map Prod.snd := by rw [hg.nodes, List.mem_reverse]; exact List.mem_map_of_mem hd
    rw [List.mem_map] at this
    obtain ⟨x, hx, hxd⟩ := this
    refine ⟨x.1, hg.entries.mem_iff.2 (List.mem_map.2 ⟨x, hx, ?_⟩)⟩
    rw [hxd]; simp only [Call.node, h1, h2]
  obtain ⟨v, hv⟩ := hin
  obtain ⟨p, hp, hp0⟩ := get_present st.map hg.path v _ hv
  unfold record
  rw [if_neg hc.1, if_neg hc.2]
  have hp' : st.map.get (hash (genKey c.test c.var)) = some p := hp
  simp only [hp', if_pos hp0]
  have hent : (p, hash c.node.key) ∈ st.map.entries := by
    rcases get_entries st.map _ p hp with e | e | e
    · exact absurd e hp0
    · exfalso
      unfold Map.get at hp
      rw [Option.map_eq_some_iff] at hp
      obtain ⟨i, hi, hi'⟩ := hp
      unfold Map.locate at hi
      exact hg.tomb i (search_some _ _ _ _ hi).1 (hi'.trans e)
    · exact e
  have hx := hg.entries.mem_iff.1 hent
  rw [List.mem_map] at hx
  obtain ⟨x, hx, hxe⟩ := hx
  obtain ⟨e1, e2⟩ := Prod.mk.inj hxe
  have hnode : st.node p = some x.2 := by rw [← e1]; exact hg.node_mem hA x hx
  have hxn : x.2 ∈ st.heap.map Prod.snd := List.mem_map_of_mem hx
  rw [hg.nodes, List.mem_reverse, List.mem_map] at hxn
  obtain ⟨e, he, hen⟩ := hxn
  have := hh e he (by rw [hkey, hkey, hen]; exact e2)
  have hk : genKey c.test c.var = x.2.key := by rw [← hen, Call.node, this.1, this.2]
  rw [hnode]
  simp only [if_pos hk]
  rfl

/-! ## The dump -/

theorem rows_spec (st : State) (t : Nat) (ht : t ≤ st.map.cap) (htomb : ∀ i, i < st.map.cap → (st.map.slots i).1 ≠ 1)
    (hn : ∀ s ∈ st.map.entries, ∃ n, st.node s.1 = some n) :
    rows st t = .ok (((st.map.upto t).filterMap fun s => st.node s.1).flatMap row) := by
  induction t with
  | zero => rfl
  | succ t ih =>
    rw [rows, ih (by omega), Outcome.bind_ok, upto_succ]
    by_cases h0 : (st.map.slots t).1 = 0
    · have hl : st.map.live t = false := by unfold Map.live; simp [h0]
      rw [if_neg (by simpa using h0), hl]
      simp
    · have hl : st.map.live t = true := by unfold Map.live; simp [h0, htomb t (by omega)]
      obtain ⟨n, hn'⟩ := hn _ (mem_entries st.map t (by omega) hl)
      rw [if_pos h0, hn', hl]
      simp [hn']

theorem freeAll_spec (st : State) (t : Nat) (ht : t ≤ st.map.cap) (htomb : ∀ i, i < st.map.cap → (st.map.slots i).1 ≠ 1)
    (hd : (st.map.entries.map Prod.fst).Nodup)
    (hn : ∀ s ∈ st.map.entries, ∃ x ∈ st.heap, x.1 = s.1) :
    freeAll st t = .ok (st.heap.filter fun x => decide (x.1 ∉ (st.map.upto t).map Prod.fst)) := by
  induction t with
  | zero =>
    have : st.map.upto 0 = [] := rfl
    rw [freeAll, this]; simp
  | succ t ih =>
    rw [freeAll, ih (by omega), Outcome.bind_ok, upto_succ]
    by_cases h0 : (st.map.slots t).1 = 0
    · have hl : st.map.live t = false := by unfold Map.live; simp [h0]
      rw [if_neg (by simpa using h0), hl]
      simp only [Bool.false_eq_true, if_false, List.append_nil]
    · have hl : st.map.live t = true := by unfold Map.live; simp [h0, htomb t (by omega)]
      obtain ⟨x, hx, hxe⟩ := hn _ (mem_entries st.map t (by omega) hl)
      have hnot : (st.map.slots t).1 ∉ (st.map.upto t).map Prod.fst := by
        obtain ⟨d, hdd⟩ : ∃ d, st.map.cap = t + 1 + d := ⟨st.map.cap - (t + 1), by omega⟩
        have hsplit : ∃ r, st.map.entries = st.map.upto (t + 1) ++ r := by
          unfold Map.entries Map.upto
          rw [hdd, List.range_add, List.filter_append, List.map_append]
          exact ⟨_, rfl⟩
        obtain ⟨r, hr⟩ := hsplit
        rw [hr, upto_succ, if_pos hl, List.map_append, List.map_append] at hd
        intro hm
        exact (List.nodup_append.1 (List.nodup_append.1 hd).1).2.2 _ hm (st.map.slots t).1 (by simp) rfl
      rw [if_pos h0, if_pos, hl]
      · congr 1
        rw [List.filter_filter]
        apply List.filter_congr
        intro y _
        simp only [if_true, List.map_append, List.mem_append, List.map_cons, List.map_nil, List.mem_singleton, not_or]
        by_cases hy : y.1 = (st.map.slots t).1 <;> simp [hy]
      · rw [List.any_eq_true]
        refine ⟨x, ?_, by simpa using hxe⟩
        rw [List.mem_filter]
        exact ⟨hx, by rw [hxe]; simpa using hnot⟩

theorem perm_lift {α β : Type} (f : α → β) {l l' : List β} (h : l.Perm l') :
    ∀ cs : List α, l' = cs.map f → ∃ ds : List α, ds.map f = l ∧ ds.Perm cs := by
  induction h with
  | nil => intro cs hc; exact ⟨[], rfl, by rw [List.map_eq_nil_iff.1 hc.symm]⟩
  | cons x _ ih =>
    intro cs hc
    rcases cs with _ | ⟨c, cs⟩
    · cases hc
    · rw [List.map_cons, List.cons.injEq] at hc
      obtain ⟨ds, h1, h2⟩ := ih cs hc.2
      exact ⟨c :: ds, by rw [List.map_cons, h1, hc.1], h2.cons c⟩
  | swap x y l =>
    intro cs hc
    rcases cs with _ | ⟨c, _ | ⟨d, cs⟩⟩
    · cases hc
    · cases hc
    · simp only [List.map_cons, List.cons.injEq] at hc
      exact ⟨d :: c :: cs, by simp [hc.1, hc.2.1, hc.2.2], List.Perm.swap _ _ _⟩
  | trans _ _ ih1 ih2 =>
    intro cs hc
    obtain ⟨ds, h1, h2⟩ := ih2 cs hc
    obtain ⟨es, h3, h4⟩ := ih1 ds h1.symm
    exact ⟨es, h3, h4.trans h2⟩

/-- **C36, dump.**  After any accepted calls, the file is the header followed by one line per
call, in some order, with the names, value, threshold and mode of the call; all nodes are
freed and there is no undefined behaviour.  Without the environment variable nothing is
written; if the file cannot be opened the process exits. -/
theorem C36_dump (addr : Nat → Nat) (hA : Alloc addr) (cs : List Call) (hL : cs.length ≤ 2 ^ 28) (st : State)
    (h : run addr cs = .ok st) :
    (∃ (ds : List Call) (st' : State), ds.Perm cs ∧ st'.heap = [] ∧ dump .unset st = .ok (none, st') ∧
      dump .file st = .ok (some ("test,variable,value,accuracy_threshold,check_mode\n".toList ++
        ds.flatMap fun c => c.test ++ ",".toList ++ c.var ++ ",".toList ++ hexA c.value ++ ",".toList ++
          hexA c.threshold ++ ",".toList ++ c.mode ++ "\n".toList), st')) ∧
    dump .unwritable st = .exit := by
  obtain ⟨hg, -⟩ := run_good addr hA cs hL st h
  refine ⟨?_, rfl⟩
  have hn : ∀ s ∈ st.map.entries, ∃ x ∈ st.heap, x.1 = s.1 := by
    intro s hs
    have := hg.entries_fst.mem_iff.1 (List.mem_map_of_mem (f := Prod.fst) hs)
    rw [List.mem_map] at this
    exact this
  have hn' : ∀ s ∈ st.map.entries, ∃ n, st.node s.1 = some n := by
    intro s hs
    obtain ⟨x, hx, e⟩ := hn s hs
    exact ⟨x.2, by rw [← e]; exact hg.node_mem hA x hx⟩
  have hr := rows_spec st st.map.cap le_rfl hg.tomb hn'
  have hf := freeAll_spec st st.map.cap le_rfl hg.tomb (hg.entries_nodup hA) hn
  have hempty : (st.heap.filter fun x => decide (x.1 ∉ (st.map.upto st.map.cap).map Prod.fst)) = [] := by
    rw [List.filter_eq_nil_iff]
    intro x hx
    have : x.1 ∈ st.map.entries.map Prod.fst := hg.entries_fst.mem_iff.2 (List.mem_map_of_mem hx)
    simpa [Map.entries] using this
  rw [hempty] at hf
  have hperm : (st.map.entries.filterMap fun s => st.node s.1).Perm (cs.map Call.node) := by
    have h1 := hg.entries.filterMap (fun s => st.node s.1)
    have h2 : (st.heap.map fun x => (x.1, hash x.2.key)).filterMap (fun s => st.node s.1) = st.heap.map Prod.snd := by
      rw [List.filterMap_map]
      have : ∀ l : List (Nat × Node), (∀ x ∈ l, st.node x.1 = some x.2) →
          l.filterMap ((fun s : Nat × Nat => st.node s.1) ∘ fun x => (x.1, hash x.2.key)) = l.map Prod.snd := by
        intro l hl
        induction l with
        | nil => rfl
        | cons x xs ih =>
          rw [List.filterMap_cons]
          simp only [Function.comp, hl x (by simp), List.map_cons]
          rw [← ih (fun y hy => hl y (by simp [hy]))]; rfl
      exact this _ (fun x hx => hg.node_mem hA x hx)
    rw [h2, hg.nodes] at h1
    exact h1.trans (List.reverse_perm _)
  obtain ⟨ds, hds, hdp⟩ : ∃ ds : List Call, ds.map Call.node = (st.map.entries.filterMap fun s => st.node s.1) ∧ ds.Perm cs := by
    exact perm_lift Call.node hperm cs rfl
  refine ⟨ds, { st with heap := [] }, hdp, rfl, ?_, ?_⟩
  · unfold dump
    have hf' : freeAll st (2 ^ st.map.nbits) = .ok [] := hf
    simp only [hf', Outcome.bind_ok]
  · unfold dump
    have hf' : freeAll st (2 ^ st.map.nbits) = .ok [] := hf
    have hr' : rows st (2 ^ st.map.nbits) = .ok ((st.map.entries.filterMap fun s => st.node s.1).flatMap row) := hr
    simp only [hf', hr', Outcome.bind_ok, ← hds, List.flatMap_map]
    have : ∀ c : Call, row c.node = c.test ++ ",".toList ++ c.var ++ ",".toList ++ hexA c.value ++ ",".toList ++
          hexA c.threshold ++ ",".toList ++ c.mode ++ "\n".toList := by
      intro c; simp [row, Call.node, genKey]
    simp only [this]
    rfl

/-! ## Reading the file -/

/-- A line of the file: five fields separated by commas. -/
def readLine (l : List Char) : Option Call :=
  match l.splitOn ',' with
  | [t, v, x, y, m] => (fromHex x).bind fun x => (fromHex y).map fun y => ⟨t, v, x, y, m⟩
  | _ => none

/-- The lines between the first and the text after the last newline. -/
def readCsv (txt : List Char) : Option (List Call) := (txt.splitOn '\n').tail.dropLast.mapM readLine

theorem splitOn_first (x : Char) (l r : List Char) (h : x ∉ l) : (l ++ x :: r).splitOn x = l :: r.splitOn x := by
  unfold List.splitOn
  exact List.splitOnP_append_cons_of_forall_mem
    (fun y hy => by simp only [beq_eq_false_iff_ne]; rintro rfl; exact h hy) x (by simp) r

theorem splitOn_lines (ls : List (List Char)) (h : ∀ l ∈ ls, '\n' ∉ l) :
    (ls.flatMap fun l => l ++ ['\n']).splitOn '\n' = ls ++ [[]] := by
  induction ls with
  | nil => rfl
  | cons l ls ih =>
    rw [List.flatMap_cons, List.append_assoc, List.singleton_append, splitOn_first _ _ _ (h l (by simp)), ih (fun m hm => h m (by simp [hm]))]
    rfl

theorem splitOn_none (x : Char) (l : List Char) (h : x ∉ l) : l.splitOn x = [l] := by
  unfold List.splitOn
  exact List.splitOnP_eq_singleton (fun y hy => by simp only [beq_eq_false_iff_ne]; rintro rfl; exact h hy)

/-- A call whose text can be read back: no newline and no separator in the strings, values that
are not NaN. -/
structure Call.Readable (c : Call) : Prop where
  test : '\n' ∉ c.test
  var : '\n' ∉ c.var
  mode : '\n' ∉ c.mode ∧ ',' ∉ c.mode
  value : c.value.WF b64 ∧ ¬ c.value.isNaN b64
  threshold : c.threshold.WF b64 ∧ ¬ c.threshold.isNaN b64

/-- **C36, reading back.**  Reading the file of accepted calls gives the calls, in some order.
Missing from the full statement: names with a newline (`C36_newline_wrong`). -/
theorem C36_read_partial (addr : Nat → Nat) (hA : Alloc addr) (cs : List Call) (hL : cs.length ≤ 2 ^ 28) (st st' : State)
    (txt : List Char) (h : run addr cs = .ok st) (hd : dump .file st = .ok (some txt, st')) (hr : ∀ c ∈ cs, c.Readable) :
    ∃ ds : List Call, ds.Perm cs ∧ readCsv txt = some ds := by
  obtain ⟨⟨ds, s1, h1, -, -, h2⟩, -⟩ := C36_dump addr hA cs hL st h
  obtain ⟨-, hcl⟩ := run_good addr hA cs hL st h
  rw [h2] at hd
  have htxt := (congrArg (fun o : Outcome (Option (List Char) × State) => match o with | .ok r => r.1 | _ => none) hd)
  simp only [Option.some.injEq] at htxt
  refine ⟨ds, h1, ?_⟩
  obtain ⟨line, hline⟩ : ∃ line : Call → List Char, line = fun c => c.test ++ ',' :: (c.var ++ ',' :: (hexA c.value ++ ',' :: (hexA c.threshold ++ ',' :: c.mode))) := ⟨_, rfl⟩
  have hnl : ∀ c ∈ ds, '\n' ∉ line c := by
    intro c hc
    have hR := hr c (h1.mem_iff.1 hc)
    have a1 := hR.test
    have a2 := hR.var
    have a3 := hR.mode.1
    have a4 : '\n' ∉ hexA c.value := fun hm => (hexA_clean _ _ hm).2 rfl
    have a5 : '\n' ∉ hexA c.threshold := fun hm => (hexA_clean _ _ hm).2 rfl
    rw [hline]
    simp only [List.mem_append, List.mem_cons, not_or]
    exact ⟨a1, by decide, a2, by decide, a4, by decide, a5, by decide, a3⟩
  have htxt' : txt = ("test,variable,value,accuracy_threshold,check_mode".toList :: ds.map line).flatMap fun l => l ++ ['\n'] := by
    rw [← htxt, List.flatMap_cons, List.flatMap_map, hline]
    simp
  have hsplit : txt.splitOn '\n' = ("test,variable,value,accuracy_threshold,check_mode".toList :: ds.map line) ++ [[]] := by
    rw [htxt']
    apply splitOn_lines
    intro l hl
    rcases List.mem_cons.1 hl with rfl | hl
    · decide
    · obtain ⟨c, hc, rfl⟩ := List.mem_map.1 hl
      exact hnl c hc
  unfold readCsv
  rw [hsplit, List.cons_append, List.tail_cons, List.dropLast_concat]
  have hone : ∀ c ∈ ds, readLine (line c) = some c := by
    intro c hc
    have hR := hr c (h1.mem_iff.1 hc)
    have hC := hcl c (h1.mem_iff.1 hc)
    have a4 : ',' ∉ hexA c.value := fun hm => (hexA_clean _ _ hm).1 rfl
    have a5 : ',' ∉ hexA c.threshold := fun hm => (hexA_clean _ _ hm).1 rfl
    unfold readLine
    rw [hline]
    simp only
    rw [splitOn_first _ _ _ hC.1, splitOn_first _ _ _ hC.2, splitOn_first _ _ _ a4, splitOn_first _ _ _ a5, splitOn_none _ _ hR.mode.2]
    simp only [hexA_round_trip _ hR.value.1 hR.value.2, hexA_round_trip _ hR.threshold.1 hR.threshold.2, Option.bind_some, Option.map_some]
  clear htxt' hsplit htxt hd h2 hnl h1
  induction ds with
  | nil => rfl
  | cons c cs ih =>
    rw [List.map_cons, List.mapM_cons, hone c (by simp), ih (fun d hd => hone d (by simp [hd]))]
    rfl

/-- **C36, negation.**  A name with a newline is accepted, and the file cannot be read. -/
theorem C36_newline_wrong : ∃ addr : Nat → Nat, Alloc addr ∧
    ((run addr [probe "t".toList "a\nb".toList (zeroBits false)] >>= fun st =>
      dump .file st >>= fun r => .ok (r.1, r.1.bind readCsv)) =
      .ok (some "test,variable,value,accuracy_threshold,check_mode\nt,a\nb,0x0p+0,0x0p+0,none\n".toList, none)) :=
  ⟨fun n => 16 * (n + 1), ⟨fun a b h => by simpa using h, fun n => by constructor <;> omega⟩, by decide +kernel⟩

/-! ## After the dump -/

theorem rows_freed (st : State) (hh : st.heap = []) (t i : Nat) (hi : i < t) (h0 : (st.map.slots i).1 ≠ 0) : rows st t = .ub := by
  induction t with
  | zero => omega
  | succ t ih =>
    rw [rows]
    by_cases h : i = t
    · subst h
      have hn : st.node (st.map.slots i).1 = none := by unfold State.node; rw [hh]; rfl
      rcases hr : rows st i with _ | _ | _
      · simp only [Outcome.bind_ok, if_pos h0, hn]
      · exfalso
        clear h0 hn hi ih
        induction i with
        | zero => cases hr
        | succ i ih =>
          rw [rows] at hr
          rcases hr' : rows st i with x | _ | _
          · rw [hr', Outcome.bind_ok] at hr
            split at hr
            · split at hr <;> cases hr
            · cases hr
          · exact ih hr'
          · rw [hr'] at hr; cases hr
      · rfl
    · rw [ih (by omega)]; rfl

/-- **C36, a single dump.**  The probes cannot be used after a dump: a second one dereferences
freed nodes, if there are any. -/
theorem C36_second_dump (addr : Nat → Nat) (hA : Alloc addr) (cs : List Call) (hL : cs.length ≤ 2 ^ 28) (hne : cs ≠ [])
    (st st' : State) (o : Output) (txt : Option (List Char)) (h : run addr cs = .ok st) (hd : dump o st = .ok (txt, st')) :
    dump .file st' = .ub := by
  obtain ⟨hg, -⟩ := run_good addr hA cs hL st h
  have hmap : st'.map = st.map := by
    unfold dump at hd
    rcases o
    · rcases hf : freeAll st (2 ^ st.map.nbits) with x | _ | _
      · simp only [hf, Outcome.bind_ok, Outcome.ok.injEq, Prod.mk.injEq] at hd; rw [← hd.2]
      · simp [hf] at hd
      · simp [hf] at hd
    · cases hd
    · rcases hr : rows st (2 ^ st.map.nbits) with y | _ | _
      · rcases hf : freeAll st (2 ^ st.map.nbits) with x | _ | _
        · simp only [hf, hr, Outcome.bind_ok, Outcome.ok.injEq, Prod.mk.injEq] at hd; rw [← hd.2]
        · simp [hf, hr] at hd
        · simp [hf, hr] at hd
      · simp [hr] at hd
      · simp [hr] at hd
  have hheap : st'.heap = [] := by
    obtain ⟨⟨ds, s1, -, e1, e2, e3⟩, e4⟩ := C36_dump addr hA cs hL st h
    rcases o
    · rw [e2] at hd; simp only [Outcome.ok.injEq, Prod.mk.injEq] at hd; rw [← hd.2]; exact e1
    · rw [e4] at hd; cases hd
    · rw [e3] at hd; simp only [Outcome.ok.injEq, Prod.mk.injEq] at hd; rw [← hd.2]; exact e1
  have hlen : st.map.entries ≠ [] := by
    intro he
    have := hg.entries.length_eq
    rw [he, List.length_map] at this
    have h2 := congrArg List.length hg.nodes
    simp only [List.length_map, List.length_reverse] at h2
    rw [← this] at h2
    exact hne (List.length_eq_zero_iff.1 h2.symm)
  obtain ⟨s, hs⟩ := List.exists_mem_of_ne_nil _ hlen
  unfold Map.entries Map.upto at hs
  rw [List.mem_map] at hs
  obtain ⟨i, hi, -⟩ := hs
  rw [List.mem_filter, List.mem_range] at hi
  have hl := hi.2
  unfold Map.live at hl
  simp only [ne_eq, decide_eq_true_eq] at hl
  unfold dump
  rw [rows_freed st' hheap _ i (by rw [hmap]; exact hi.1) (by rw [hmap]; exact hl.1)]
  rfl

/-- **C36, negation.**  Two pairs with equal hashes: recording the second one again is
accepted, and the file has it twice, with two values. -/
theorem C36_duplicate_wrong : ∃ addr : Nat → Nat, Alloc addr ∧
    (run addr [probe "t".toList "Aa".toList (zeroBits false), probe "t".toList "BB".toList (zeroBits false),
        probe "t".toList "BB".toList ⟨false, 1023, 0⟩] >>= fun st => dump .file st >>= fun r => .ok r.1) =
      .ok (some ("test,variable,value,accuracy_threshold,check_mode\nt,Aa,0x0p+0,0x0p+0,none\n" ++
        "t,BB,0x0p+0,0x0p+0,none\nt,BB,0x1p+0,0x0p+0,none\n").toList) :=
  ⟨fun n => 16 * (n + 1), ⟨fun a b h => by simpa using h, fun n => by constructor <;> omega⟩, by decide +kernel⟩

/-- Recording a pair again, after other probes. -/
example : (run (fun n => 16 * (n + 1)) [probe "a".toList "x".toList (zeroBits false), probe "b".toList "x".toList (zeroBits true),
    probe "a".toList "x".toList (zeroBits true)] >>= fun st => .ok st.count) = .exit := by decide +kernel

/-- A table of two probes, written in the order of their hashes. -/
example : (run (fun n => 16 * (n + 1)) [probeCheck "sum".toList "x".toList ⟨true, 1022, 2 ^ 50⟩ ⟨false, 1000, 0⟩,
      probe "sum".toList "y".toList (infBits b64 false)] >>= fun st => dump .file st >>= fun r => .ok r.1) =
    .ok (some ("test,variable,value,accuracy_threshold,check_mode\nsum,y,inf,0x0p+0,none\n" ++
      "sum,x,-0x1.4p-1,0x1p-23,absolute\n").toList) := by decide +kernel

/-- **C36, the three calls.**  What a program with a single probe writes, for each of the three
functions of the interface. -/
theorem C36_calls (addr : Nat → Nat) (hA : Alloc addr) (test var : List Char) (x thr : Bits)
    (ht : ',' ∉ test) (hv : ',' ∉ var) :
    let file (c : Call) := run addr [c] >>= fun st => dump .file st >>= fun r => .ok r.1
    let head := "test,variable,value,accuracy_threshold,check_mode\n".toList ++ test ++ ",".toList ++ var ++
      ",".toList ++ hexA x ++ ",".toList
    file (probe test var x) = .ok (some (head ++ "0x0p+0,none\n".toList)) ∧
    file (probeCheck test var x thr) = .ok (some (head ++ hexA thr ++ ",absolute\n".toList)) ∧
    file (probeCheckRel test var x thr) = .ok (some (head ++ hexA thr ++ ",relative\n".toList)) := by
  have key : ∀ c : Call, c.test = test → c.var = var →
      (run addr [c] >>= fun st => dump .file st >>= fun r => .ok r.1) =
        .ok (some ("test,variable,value,accuracy_threshold,check_mode\n".toList ++
        (c.test ++ ",".toList ++ c.var ++ ",".toList ++ hexA c.value ++ ",".toList ++
          hexA c.threshold ++ ",".toList ++ c.mode ++ "\n".toList))) := by
    intro c h1 h2
    obtain ⟨st, hst, -⟩ := C36_accepted addr hA [c] (by simp)
      (by intro d hd; rw [List.mem_singleton] at hd; subst hd; rw [h1, h2]; exact ⟨ht, hv⟩) (by simp)
    obtain ⟨⟨ds, st', hp, -, -, hd⟩, -⟩ := C36_dump addr hA [c] (by simp) st hst
    rw [List.perm_singleton] at hp
    subst hp
    rw [hst, Outcome.bind_ok, hd, Outcome.bind_ok]
    simp
  intro file head
  refine ⟨?_, ?_, ?_⟩
  · refine (key (probe test var x) rfl rfl).trans ?_
    have : hexA (zeroBits false) = "0x0p+0".toList := by decide +kernel
    simp [probe, this, head]
  · refine (key (probeCheck test var x thr) rfl rfl).trans ?_
    simp [probeCheck, head]
  · refine (key (probeCheckRel test var x thr) rfl rfl).trans ?_
    simp [probeCheckRel, head]

example : (run (fun n => 16 * (n + 1)) [probeCheckRel "t".toList "v".toList ⟨false, 1023, 0⟩ ⟨false, 1022, 0⟩]
    >>= fun st => dump .file st >>= fun r => .ok r.1) =
      .ok (some "test,variable,value,accuracy_threshold,check_mode\nt,v,0x1p+0,0x1p-1,relative\n".toList) := by
  decide +kernel

end Verif.Probes
