import Verif.Hash.MapRep
import Mathlib.Data.Finset.Dedup
import Mathlib.Data.Finset.Insert

/-! # Hash map: C33, C34 -/

namespace Verif.Hash

theorem run_snoc (ops : List Op) (o : Op) : Map.run (ops ++ [o]) = (Map.run ops).bind (fun m => m.step o) := by
  unfold Map.run
  rw [List.foldlM_append]
  rcases List.foldlM Map.step Map.create ops with _ | m
  · rfl
  · simp [List.foldlM]

/-- Every history of at most `2^28` operations keeps the invariant. -/
theorem run_inv (ops : List Op) (hL : ops.length ≤ 2 ^ 28) :
    ∃ m, Map.run ops = some m ∧ m.Inv ∧ m.Bnd ops.length := by
  induction ops using List.reverseRecOn with
  | nil =>
    refine ⟨Map.create, rfl, inv_create, ⟨?_, Or.inl rfl⟩⟩
    exact le_of_eq (empty_cnt 3)
  | append_singleton l o ih =>
    rw [List.length_append, List.length_singleton] at hL
    obtain ⟨m, h1, h2, h3⟩ := ih (by omega)
    rw [run_snoc, h1, List.length_append, List.length_singleton]
    simp only [Option.bind_some]
    rcases o with ⟨k, v⟩ | k
    · exact insert_inv m k v l.length h2 h3 (by omega)
    · obtain ⟨m', a1, a2, a3, a4⟩ := remove_inv m k h2
      refine ⟨m', a1, a2, ⟨by have := h3.occ; omega, ?_⟩⟩
      rw [a3]
      rcases h3.size with h | h
      · exact Or.inl h
      · right; omega

/-- **C33, termination.**  After any history of insertions and removals — any keys, any
values — no probe loop runs forever: the next insertion, removal, lookup all return, and the
capacity stays below `2^31` (so `1 << nbits` is a positive `int`). -/
theorem C33_terminates (ops : List Op) (hL : ops.length < 2 ^ 28) :
    ∃ m, Map.run ops = some m ∧ m.nbits < 31 ∧
      ∀ k v, (m.insert k v).isSome ∧ (m.remove k).isSome ∧ (m.get k).isSome ∧ (m.have_ k).isSome := by
  obtain ⟨m, h1, h2, h3⟩ := run_inv ops (by omega)
  refine ⟨m, h1, h3.small (by omega), fun k v => ?_⟩
  obtain ⟨_, a, -⟩ := insert_inv m k v ops.length h2 h3 hL
  obtain ⟨_, b, -⟩ := remove_inv m k h2
  obtain ⟨_, c⟩ := locate_total m k h2
  simp [a, b, c, Map.get, Map.have_]

/-- A probe loop reported as non-terminating is one: no index it visits, ever, meets the exit
condition. -/
theorem C33_none_is_divergence (m : Map) (k : Nat) (h : m.get k = none) (j : Nat) :
    (m.slots (probe m.nbits (start m.nbits k) j)).1 ≠ 0 ∧
    (m.slots (probe m.nbits (start m.nbits k) j)).2 ≠ k := by
  unfold Map.get at h
  rw [Option.map_eq_none_iff] at h
  have := search_none _ _ _ h j
  simpa using this

/-! ## What is found -/

/-- History made of insertions. -/
def inserts (h : List (Nat × Nat)) : List Op := h.map fun p => Op.insert p.1 p.2

/-- Lookup in a history: the value inserted for the key. -/
def lookup (h : List (Nat × Nat)) (k : Nat) : Option Nat := (h.find? (fun p => p.1 == k)).map (·.2)

/-- Keys and values of the history determine each other, and no value is 0 or 1. -/
def OneToOne (h : List (Nat × Nat)) : Prop :=
  (∀ p ∈ h, p.2 ≠ 0 ∧ p.2 ≠ 1) ∧ ∀ p ∈ h, ∀ q ∈ h, p.1 = q.1 ↔ p.2 = q.2

theorem lookup_some (h : List (Nat × Nat)) (k v : Nat) (hl : lookup h k = some v) : (k, v) ∈ h := by
  unfold lookup at hl
  rw [Option.map_eq_some_iff] at hl
  obtain ⟨p, hp, rfl⟩ := hl
  have h1 := List.mem_of_find?_eq_some hp
  have h2 := List.find?_some hp
  simp at h2
  subst h2; exact h1

theorem lookup_none (h : List (Nat × Nat)) (k : Nat) (hl : lookup h k = none) (p : Nat × Nat) (hp : p ∈ h) :
    p.1 ≠ k := by
  unfold lookup at hl
  rw [Option.map_eq_none_iff, List.find?_eq_none] at hl
  simpa using hl p hp

theorem lookup_mem (h : List (Nat × Nat)) (hO : OneToOne h) (k v : Nat) (hm : (k, v) ∈ h) : lookup h k = some v := by
  rcases hl : lookup h k with _ | w
  · exact absurd rfl (lookup_none h k hl (k, v) hm)
  · have := lookup_some h k w hl
    have e : v = w := (hO.2 _ hm _ this).1 rfl
    rw [e]

theorem lookup_snoc (l : List (Nat × Nat)) (p : Nat × Nat) (k : Nat) :
    lookup (l ++ [p]) k = (lookup l k).or (if p.1 = k then some p.2 else none) := by
  unfold lookup
  rw [List.find?_append]
  generalize List.find? _ l = o
  rcases o with _ | q
  · by_cases h : p.1 = k <;> simp [h]
  · simp

theorem inserts_rep (h : List (Nat × Nat)) (hO : OneToOne h) (hL : h.length ≤ 2 ^ 28) :
    ∃ m, Map.run (inserts h) = some m ∧ m.Inv ∧ m.Rep (lookup h) (h.map Prod.fst).toFinset.card ∧
      ∀ i, i < m.cap → (m.slots i).1 ≠ 1 := by
  induction h using List.reverseRecOn with
  | nil => exact ⟨Map.create, rfl, inv_create, rep_empty 3, fun i _ => by simp [Map.create, zeros]⟩
  | append_singleton l p ih =>
    rw [List.length_append, List.length_singleton] at hL
    have hO' : OneToOne l := ⟨fun q hq => hO.1 q (by simp [hq]),
      fun q hq r hr => hO.2 q (by simp [hq]) r (by simp [hr])⟩
    obtain ⟨m, h1, h2, h3, h4⟩ := ih hO' (by omega)
    obtain ⟨m', b1, b2, b3⟩ := run_inv (inserts (l ++ [p])) (by simp [inserts]; omega)
    have hb : m.nbits < 31 := by
      obtain ⟨m0, c1, -, c3⟩ := run_inv (inserts l) (by simp [inserts]; omega)
      rw [h1] at c1; cases c1
      exact c3.small (by simp [inserts]; omega)
    have hrun : Map.run (inserts (l ++ [p])) = m.insert p.1 p.2 := by
      have : inserts (l ++ [p]) = inserts l ++ [Op.insert p.1 p.2] := by simp [inserts]
      rw [this, run_snoc, h1]; rfl
    have hpv := hO.1 p (by simp)
    have hfind : lookup (l ++ [p]) = if (lookup l p.1).isSome then lookup l else upd (lookup l) p.1 (some p.2) := by
      funext k
      rw [lookup_snoc]
      unfold upd
      by_cases hk : k = p.1
      · subst hk
        rcases hl : lookup l p.1 with _ | w <;> simp [hl]
      · have hk' : ¬ p.1 = k := fun h => hk h.symm
        rcases hl : lookup l p.1 with _ | w <;> simp [hk, hk']
    rw [hrun] at b1 ⊢
    rcases hlk : lookup l p.1 with _ | w
    · -- fresh key
      have hfresh : ∀ k', lookup l k' ≠ some p.2 := by
        intro k' hk'
        have hm := lookup_some l k' p.2 hk'
        have hk2 := (hO.2 (k', p.2) (by simp [hm]) p (by simp)).2 rfl
        simp only at hk2
        rw [hk2, hlk] at hk'; cases hk'
      obtain ⟨m'', a1, a2, a3⟩ := insert_fresh m _ _ p.1 p.2 h3 (by
        intro k1 k2 v e1 e2
        have m1 := lookup_some l k1 v e1
        have m2 := lookup_some l k2 v e2
        exact (hO'.2 _ m1 _ m2).2 rfl) hpv hlk hfresh h2
      rw [a1] at b1
      have e : m'' = m' := Option.some.inj b1
      subst e
      refine ⟨m'', a1, b2, ?_, a3 h4⟩
      rw [hfind, hlk]
      have hnd : p.1 ∉ l.map Prod.fst := by
        intro hmem
        obtain ⟨q, hq, hqk⟩ := List.mem_map.1 hmem
        exact lookup_none l p.1 hlk q hq hqk
      have hlen : ((l ++ [p]).map Prod.fst).toFinset.card = (l.map Prod.fst).toFinset.card + 1 := by
        rw [List.map_append, List.toFinset_append]
        simp only [List.map_cons, List.map_nil, List.toFinset_cons, List.toFinset_nil]
        rw [Finset.union_comm]
        simp only [insert_empty_eq, Finset.singleton_union]
        exact Finset.card_insert_of_notMem (by simpa using hnd)
      rw [hlen]
      simpa using a2
    · have hw : w = p.2 := by
        have hm := lookup_some l p.1 w hlk
        exact (hO.2 (p.1, w) (by simp [hm]) p (by simp)).1 rfl
      subst hw
      have hag := insert_again m _ _ p.1 p.2 h3 hlk h2 (by omega) h4
      refine ⟨m, hag, h2, ?_, h4⟩
      rw [hfind, hlk]
      have hlen : ((l ++ [p]).map Prod.fst).toFinset.card = (l.map Prod.fst).toFinset.card := by
        rw [List.map_append, List.toFinset_append]
        simp only [List.map_cons, List.map_nil, List.toFinset_cons, List.toFinset_nil]
        rw [Finset.union_comm]
        simp only [insert_empty_eq, Finset.singleton_union]
        rw [Finset.insert_eq_of_mem]
        have := lookup_some l p.1 p.2 hlk
        rw [List.mem_toFinset, List.mem_map]
        exact ⟨_, this, rfl⟩
      rw [hlen]
      simpa using h3

theorem get_absent (m : Map) (S : Nat → Option Nat) (n k : Nat) (hR : m.Rep S n) (hI : m.Inv) (hk : S k = none) :
    ∃ v, m.get k = some v ∧ (v = 0 ∨ v = 1) := by
  obtain ⟨i, hi⟩ := locate_total m k hI
  have h := hi
  unfold Map.locate at h
  obtain ⟨hlt, hs, -⟩ := search_some _ _ _ _ h
  refine ⟨(m.slots i).1, by unfold Map.get; rw [hi]; rfl, ?_⟩
  by_contra hc
  have hl : m.live i = true := by unfold Map.live; simp; tauto
  have h2 := hR.sound i hlt hl
  simp at hs
  rcases hs with hs | hs
  · tauto
  · rw [hs, hk] at h2; cases h2

/-- **C33.**  Whatever the history of insertions of pairs in which keys and values determine
each other (a pair may be inserted several times), each key is found with its value, a key
never inserted is not found, and the count is the number of keys.  Missing from the full
statement: two values for one key, or one value for two keys (see the two counterexamples). -/
theorem C33_insert_get_partial (h : List (Nat × Nat)) (hO : OneToOne h) (hL : h.length ≤ 2 ^ 28) :
    ∃ m, Map.run (inserts h) = some m ∧
      (∀ k v, (k, v) ∈ h → m.get k = some v ∧ m.have_ k = some true) ∧
      (∀ k, k ∉ h.map Prod.fst → m.get k = some 0 ∧ m.have_ k = some false) ∧
      m.numItems.toNat = (h.map Prod.fst).toFinset.card := by
  obtain ⟨m, h1, h2, h3, h4⟩ := inserts_rep h hO hL
  refine ⟨m, h1, ?_, ?_, ?_⟩
  · intro k v hkv
    obtain ⟨i, hi, hloc, hs⟩ := locate_found m _ _ k v h3 (lookup_mem h hO k v hkv)
    have := (hO.1 _ hkv).1
    simp [Map.get, Map.have_, hloc, hs]; exact this
  · intro k hk
    have hnone : lookup h k = none := by
      rcases hl : lookup h k with _ | w
      · rfl
      · exact absurd (List.mem_map.2 ⟨_, lookup_some h k w hl, rfl⟩) hk
    obtain ⟨v, hv, hv01⟩ := get_absent m _ _ k h3 h2 hnone
    obtain ⟨i, hi⟩ := locate_total m k h2
    have hlt := (search_some _ _ _ _ (show search _ _ _ = some i from hi)).1
    have hne := h4 i hlt
    unfold Map.get at hv ⊢; unfold Map.have_
    rw [hi] at hv ⊢
    simp only [Option.map_some, Option.some.injEq] at hv ⊢
    have : (m.slots i).1 = 0 := by
      rcases hv01 with h | h
      · rw [hv, h]
      · rw [hv, h] at hne; exact absurd rfl hne
    simp [this]
  · unfold Map.numItems
    rw [h3.items, BitVec.toNat_ofNat]
    apply Nat.mod_eq_of_lt
    have : (h.map Prod.fst).toFinset.card ≤ h.length := by
      have := List.toFinset_card_le (h.map Prod.fst)
      simpa using this
    omega

/-- A history with more keys than the initial capacity, one pair inserted twice. -/
example : OneToOne [(1, 10), (9, 11), (17, 12), (1, 10), (25, 13), (33, 14), (41, 15), (49, 16), (57, 17)] := by
  unfold OneToOne; decide

/-- **C33, sound lookups for every history.**  Whatever was inserted and removed, in any
order, `get` returns NULL, the tombstone 1, or a value inserted under that very key. -/
theorem C33_get_sound (ops : List Op) (m : Map) (hrun : Map.run ops = some m) (k v : Nat)
    (hg : m.get k = some v) : v = 0 ∨ v = 1 ∨ Op.insert k v ∈ ops := by
  have key : ∀ ops m, Map.run ops = some m → ∀ i, m.live i = true → Op.insert (m.slots i).2 (m.slots i).1 ∈ ops := by
    clear hg hrun k v m ops
    have hadd : ∀ (m m' : Map) (k v : Nat) (P : Nat × Nat → Prop), m.addMember k v = some m' → (v ≠ 0 → v ≠ 1 → P (v, k)) →
        (∀ i, m.live i = true → P (m.slots i)) → ∀ i, m'.live i = true → P (m'.slots i) := by
      intro m m' k v P ha hP hm i hl
      unfold Map.addMember at ha
      split at ha
      · cases ha; exact hm i hl
      · rename_i hv
        rw [Option.map_eq_some_iff] at ha
        obtain ⟨r, -, rfl⟩ := ha
        split at hl
        · rename_i hrv; rw [if_pos hrv]; exact hm i hl
        · rename_i hrv
          rw [if_neg hrv]
          have hl' : (setSlot m.slots r (v, k) i).1 ≠ 0 ∧ (setSlot m.slots r (v, k) i).1 ≠ 1 := of_decide_eq_true hl
          show P (setSlot m.slots r (v, k) i)
          by_cases hir : i = r
          · rw [hir, setSlot_same]; exact hP (fun h => hv (Or.inl h)) (fun h => hv (Or.inr h))
          · rw [setSlot_ne _ _ _ _ hir] at hl' ⊢
            exact hm i (decide_eq_true hl')
    have hre : ∀ (old : Nat → Nat × Nat) (P : Nat × Nat → Prop) (t : Nat) (m0 m' : Map),
        (∀ i, (old i).1 ≠ 0 → (old i).1 ≠ 1 → P (old i)) → (∀ i, m0.live i = true → P (m0.slots i)) →
        reinsert old t m0 = some m' → ∀ i, m'.live i = true → P (m'.slots i) := by
      intro old P t m0
      induction t with
      | zero => intro m' ho hm h; cases h; exact hm
      | succ t ih =>
        intro m' ho hm h
        rw [reinsert, Option.bind_eq_some_iff] at h
        obtain ⟨m1, h1, h2⟩ := h
        exact hadd m1 m' _ _ P h2 (ho t) (ih m1 ho hm h1)
    intro ops
    induction ops using List.reverseRecOn with
    | nil =>
      intro m h i hl
      cases h
      simp [Map.live, Map.create, zeros] at hl
    | append_singleton l o ih =>
      intro m h
      rw [run_snoc, Option.bind_eq_some_iff] at h
      obtain ⟨m0, h0, hstep⟩ := h
      have ih0 := ih m0 h0
      have ih1 : ∀ i, m0.live i = true → Op.insert (m0.slots i).2 (m0.slots i).1 ∈ l ++ [o] :=
        fun i hi => by simp [ih0 i hi]
      rcases o with ⟨k, v⟩ | k
      · simp only [Map.step, Map.insert] at hstep
        rw [Option.bind_eq_some_iff] at hstep
        obtain ⟨m1, ha, hr⟩ := hstep
        have hm1 := hadd m0 m1 k v (fun p => Op.insert p.2 p.1 ∈ l ++ [Op.insert k v]) ha (by simp) ih1
        unfold Map.rehash at hr
        split at hr
        · refine hre m1.slots (fun p => Op.insert p.2 p.1 ∈ l ++ [Op.insert k v]) _ _ m ?_ ?_ hr
          · intro i a b; exact hm1 i (by unfold Map.live; simp; tauto)
          · intro i hi; simp [Map.live, zeros] at hi
        · cases hr; exact hm1
      · simp only [Map.step, Map.remove] at hstep
        rw [Option.map_eq_some_iff] at hstep
        obtain ⟨r, -, rfl⟩ := hstep
        split
        · exact ih1
        · intro i hi
          have hl' : (setSlot m0.slots r (1, (m0.slots r).2) i).1 ≠ 0 ∧
              (setSlot m0.slots r (1, (m0.slots r).2) i).1 ≠ 1 := of_decide_eq_true hi
          show Op.insert (setSlot m0.slots r (1, (m0.slots r).2) i).2 (setSlot m0.slots r (1, (m0.slots r).2) i).1 ∈ _
          by_cases hir : i = r
          · rw [hir, setSlot_same] at hl'; exact absurd rfl hl'.2
          · rw [setSlot_ne _ _ _ _ hir] at hl' ⊢
            exact ih1 i (decide_eq_true hl')
  unfold Map.get at hg
  rw [Option.map_eq_some_iff] at hg
  obtain ⟨i, hi, rfl⟩ := hg
  by_cases h0 : (m.slots i).1 = 0
  · exact Or.inl h0
  by_cases h1 : (m.slots i).1 = 1
  · exact Or.inr (Or.inl h1)
  right; right
  have hs := (search_some _ _ _ _ (show search _ _ _ = some i from hi)).2.1
  simp [h0] at hs
  have := key ops m hrun i (by unfold Map.live; simp [h0, h1])
  rwa [hs] at this

/-- **C33, negation 1.**  One value under two keys: the second insertion is dropped when the
probe meets the value. -/
theorem C33_same_value_dropped : ∃ h : List (Nat × Nat), ∃ m, Map.run (inserts h) = some m ∧
    (9, 50) ∈ h ∧ m.get 9 = some 0 ∧ m.have_ 9 = some false :=
  ⟨[(1, 50), (9, 50)], (Map.run (inserts [(1, 50), (9, 50)])).get (by decide +kernel),
    by simp, by decide, by decide +kernel, by decide +kernel⟩

/-- **C33, negation 2.**  Two values under one key: the first is returned until the table
grows, then the second. -/
theorem C33_duplicate_key_changes : ∃ h : List (Nat × Nat), ∃ p m m',
    Map.run (inserts h) = some m ∧ Map.run (inserts (h ++ [p])) = some m' ∧ p.1 ≠ 7 ∧
    m.get 7 = some 100 ∧ m'.get 7 = some 200 :=
  ⟨[(7, 100), (7, 200), (1, 11), (2, 12), (3, 13), (4, 14)], (5, 15),
    (Map.run (inserts [(7, 100), (7, 200), (1, 11), (2, 12), (3, 13), (4, 14)])).get (by decide +kernel),
    (Map.run (inserts ([(7, 100), (7, 200), (1, 11), (2, 12), (3, 13), (4, 14)] ++ [(5, 15)]))).get (by decide +kernel),
    by simp, by simp, by decide, by decide +kernel, by decide +kernel⟩

/-! ## C34 -/

/-- **C34, negation.**  A removed key is still present: `have` says yes and `get` returns the
invalid pointer 1; removing it again drives the number of items to `2^64 - 1`. -/
theorem C34_removed_still_present : ∃ m m', Map.run [.insert 5 50, .remove 5] = some m ∧
    m.have_ 5 = some true ∧ m.get 5 = some 1 ∧
    Map.run [.insert 5 50, .remove 5, .remove 5] = some m' ∧ m'.numItems = BitVec.allOnes 64 :=
  ⟨(Map.run [.insert 5 50, .remove 5]).get (by decide +kernel),
    (Map.run [.insert 5 50, .remove 5, .remove 5]).get (by decide +kernel),
    by simp, by decide +kernel, by decide +kernel, by simp, by decide +kernel⟩

/-- **C34, part.**  Removing a key changes no lookup of another key — in every reachable
state, and whether or not the key was present. -/
theorem C34_others_unaffected_partial (m m' : Map) (k k' : Nat) (hk : k' ≠ k) (hr : m.remove k = some m') :
    m'.get k' = m.get k' ∧ m'.have_ k' = m.have_ k' := by
  unfold Map.remove at hr
  rw [Option.map_eq_some_iff] at hr
  obtain ⟨i, hi, rfl⟩ := hr
  split
  · exact ⟨rfl, rfl⟩
  · rename_i hne
    have hs := (search_some _ _ _ _ (show search _ _ _ = some i from hi)).2.1
    simp [hne] at hs
    have hloc : Map.locate { m with slots := setSlot m.slots i (1, (m.slots i).2), nitems := m.nitems - 1, ndel := m.ndel + 1 } k' = m.locate k' := by
      unfold Map.locate
      apply search_congr
      intro j _
      simp only [setSlot]
      split
      · rename_i h; subst h; simp [hne]
      · rfl
    have hval : ∀ j, m.locate k' = some j → (setSlot m.slots i (1, (m.slots i).2) j).1 = (m.slots j).1 := by
      intro j hj
      unfold setSlot
      split
      · rename_i h
        subst h
        have hs' := (search_some _ _ _ _ (show search _ _ _ = some j from hj)).2.1
        simp [hne] at hs'
        exact absurd (hs'.symm.trans hs) hk
      · rfl
    unfold Map.get Map.have_
    rw [hloc]
    rcases hl : m.locate k' with _ | j
    · exact ⟨rfl, rfl⟩
    · simp [hval j hl]

/-- Histories in which a key is inserted only when absent, with a value not in use, and
removed only when present; `l` is the abstract content. -/
def Legal : List (Nat × Nat) → List Op → Prop
  | _, [] => True
  | l, .insert k v :: ops => v ≠ 0 ∧ v ≠ 1 ∧ (∀ p ∈ l, p.1 ≠ k ∧ p.2 ≠ v) ∧ Legal ((k, v) :: l) ops
  | l, .remove k :: ops => (∃ p ∈ l, p.1 = k) ∧ Legal (l.filter (fun p => p.1 ≠ k)) ops

/-- Abstract content after a history. -/
def content : List (Nat × Nat) → List Op → List (Nat × Nat)
  | l, [] => l
  | l, .insert k v :: ops => content ((k, v) :: l) ops
  | l, .remove k :: ops => content (l.filter (fun p => p.1 ≠ k)) ops

/-- Keys and values of an association list are distinct. -/
def Distinct (l : List (Nat × Nat)) : Prop := (l.map Prod.fst).Nodup ∧ (l.map Prod.snd).Nodup

theorem distinct_mem (l : List (Nat × Nat)) (h : Distinct l) (k v : Nat) (hm : (k, v) ∈ l) : lookup l k = some v := by
  rcases hl : lookup l k with _ | w
  · exact absurd rfl (lookup_none l k hl (k, v) hm)
  · have hw := lookup_some l k w hl
    have := List.inj_on_of_nodup_map h.1 hm hw rfl
    cases this; rfl

theorem legal_rep (ops : List Op) : ∀ (l : List (Nat × Nat)) (m : Map) (L : Nat), Legal l ops → Distinct l →
    m.Inv → m.Bnd L → L + ops.length ≤ 2 ^ 28 → m.Rep (lookup l) l.length →
    ∃ m', ops.foldlM Map.step m = some m' ∧ m'.Inv ∧ Distinct (content l ops) ∧
      m'.Rep (lookup (content l ops)) (content l ops).length := by
  induction ops with
  | nil => intro l m L _ hd hI _ _ hR; exact ⟨m, rfl, hI, hd, hR⟩
  | cons o ops ih =>
    intro l m L hleg hd hI hB hL hR
    rw [List.length_cons] at hL
    rw [List.foldlM_cons]
    rcases o with ⟨k, v⟩ | k
    · obtain ⟨hv0, hv1, hnew, hrest⟩ := hleg
      have hk : lookup l k = none := by
        rcases hl : lookup l k with _ | w
        · rfl
        · exact absurd rfl (hnew _ (lookup_some l k w hl)).1
      obtain ⟨m1, a1, a2, -⟩ := insert_fresh m _ _ k v hR (by
        intro k1 k2 w e1 e2
        have := List.inj_on_of_nodup_map hd.2 (lookup_some l k1 w e1) (lookup_some l k2 w e2) rfl
        cases this; rfl) ⟨hv0, hv1⟩ hk (by
          intro k' hk'; exact (hnew _ (lookup_some l k' v hk')).2 rfl) hI
      obtain ⟨m2, b1, b2, b3⟩ := insert_inv m k v L hI hB (by omega)
      rw [a1] at b1; cases b1
      have hd' : Distinct ((k, v) :: l) := by
        refine ⟨?_, ?_⟩
        · rw [List.map_cons, List.nodup_cons]
          exact ⟨fun h => by obtain ⟨q, hq, e⟩ := List.mem_map.1 h; exact (hnew q hq).1 e, hd.1⟩
        · rw [List.map_cons, List.nodup_cons]
          exact ⟨fun h => by obtain ⟨q, hq, e⟩ := List.mem_map.1 h; exact (hnew q hq).2 e, hd.2⟩
      have hup : lookup ((k, v) :: l) = upd (lookup l) k (some v) := by
        funext k'
        unfold lookup upd
        by_cases h : k' = k
        · simp [h]
        · have h' : ¬ k = k' := fun e => h e.symm
          simp [h, h']
      simp only [Map.step, a1]
      exact ih _ m1 (L + 1) hrest hd' b2 b3 (by omega) (by rw [hup]; exact a2)
    · obtain ⟨⟨p, hp, hpk⟩, hrest⟩ := hleg
      have hlk : lookup l k = some p.2 := distinct_mem l hd k p.2 (by rw [← hpk]; exact hp)
      obtain ⟨m1, a1, a2⟩ := remove_present m _ _ k p.2 hR hlk
      obtain ⟨m2, b1, b2, b3, b4⟩ := remove_inv m k hI
      rw [a1] at b1; cases b1
      have hd' : Distinct (l.filter (fun p => p.1 ≠ k)) :=
        ⟨hd.1.sublist (List.filter_sublist.map _), hd.2.sublist (List.filter_sublist.map _)⟩
      have hup : lookup (l.filter (fun p => p.1 ≠ k)) = upd (lookup l) k none := by
        funext k'
        unfold upd
        by_cases h : k' = k
        · rw [if_pos h]
          rcases hl : lookup (l.filter (fun p => p.1 ≠ k)) k' with _ | w
          · rfl
          · have := lookup_some _ _ _ hl
            simp [h] at this
        · rw [if_neg h]
          rcases hl : lookup l k' with _ | w
          · rcases hl2 : lookup (l.filter (fun p => p.1 ≠ k)) k' with _ | w
            · rfl
            · have := lookup_some _ _ _ hl2
              rw [List.mem_filter] at this
              exact absurd rfl (lookup_none l k' hl _ this.1)
          · apply distinct_mem _ hd'
            rw [List.mem_filter]
            exact ⟨lookup_some _ _ _ hl, by simpa using h⟩
      have hlen : (l.filter (fun p => p.1 ≠ k)).length = l.length - 1 := by
        have h1 : l.length = (l.filter (fun p => p.1 ≠ k)).length + (l.filter (fun p => p.1 = k)).length := by
          have := List.length_eq_length_filter_add (l := l) (fun p => decide (p.1 ≠ k))
          simpa using this
        have h2 : (l.filter (fun p => p.1 = k)).length = 1 := by
          have hc : (l.map Prod.fst).count k = 1 :=
            List.count_eq_one_of_mem hd.1 (List.mem_map.2 ⟨p, hp, hpk⟩)
          rw [List.count_eq_countP, List.countP_map, List.countP_eq_length_filter] at hc
          rw [← hc]; congr 2
        omega
      simp only [Map.step, a1]
      refine ih _ m1 (L + 1) hrest hd' b2 ⟨by have := hB.occ; omega, ?_⟩ (by omega)
        (by rw [hup, hlen]; exact a2)
      rw [b3]
      rcases hB.size with h | h
      · exact Or.inl h
      · right; omega

/-- **C34, part.**  In every history that inserts only absent keys and removes only present
ones, lookups and the item count agree with the abstract map — except that a removed key
may answer with the tombstone 1 where NULL is expected. -/
theorem C34_refines_partial (ops : List Op) (hleg : Legal [] ops) (hL : ops.length ≤ 2 ^ 28) :
    ∃ m, Map.run ops = some m ∧
      (∀ k v, (k, v) ∈ content [] ops → m.get k = some v) ∧
      (∀ k, (∀ v, (k, v) ∉ content [] ops) → m.get k = some 0 ∨ m.get k = some 1) ∧
      m.numItems = BitVec.ofNat 64 (content [] ops).length := by
  obtain ⟨m, h1, h2, h3, h4⟩ := legal_rep ops [] Map.create 0 hleg (by simp [Distinct]) inv_create
    ⟨le_of_eq (empty_cnt 3), Or.inl rfl⟩ (by omega) (rep_empty 3)
  refine ⟨m, h1, ?_, ?_, h4.items⟩
  · intro k v hkv
    obtain ⟨i, hi, hloc, hs⟩ := locate_found m _ _ k v h4 (distinct_mem _ h3 k v hkv)
    simp [Map.get, hloc, hs]
  · intro k hk
    have hnone : lookup (content [] ops) k = none := by
      rcases hl : lookup (content [] ops) k with _ | w
      · rfl
      · exact absurd (lookup_some _ k w hl) (hk w)
    obtain ⟨v, hv, h | h⟩ := get_absent m _ _ k h4 h2 hnone
    · left; rw [hv, h]
    · right; rw [hv, h]

example : Legal [] [.insert 1 10, .insert 9 11, .remove 1, .insert 17 12, .insert 1 10] := by
  simp [Legal]

end Verif.Hash
