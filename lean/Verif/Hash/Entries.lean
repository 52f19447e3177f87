import Mathlib.Data.List.Perm.Basic
import Mathlib.Data.List.Range
import Verif.Hash.Props

/-! # Content of a hash map as a list of slots -/

namespace Verif.Hash

/-- Slots in use among the first `t`. -/
def Map.upto (m : Map) (t : Nat) : List (Nat × Nat) := ((List.range t).filter m.live).map m.slots

/-- Slots in use, in the order of the table. -/
def Map.entries (m : Map) : List (Nat × Nat) := m.upto m.cap

theorem upto_succ (m : Map) (t : Nat) : m.upto (t + 1) = m.upto t ++ (if m.live t then [m.slots t] else []) := by
  unfold Map.upto
  rw [List.range_succ, List.filter_append, List.map_append]
  congr 1
  by_cases h : m.live t = true <;> simp [h]

theorem upto_congr (m m' : Map) (t : Nat) (h : ∀ i, i < t → m.slots i = m'.slots i) : m.upto t = m'.upto t := by
  induction t with
  | zero => rfl
  | succ t ih =>
    have hl : m.live t = m'.live t := by unfold Map.live; rw [h t (by omega)]
    rw [upto_succ, upto_succ, ih (fun i hi => h i (by omega)), hl, h t (by omega)]

theorem mem_entries (m : Map) (i : Nat) (hi : i < m.cap) (hl : m.live i = true) : m.slots i ∈ m.entries := by
  unfold Map.entries Map.upto
  rw [List.mem_map]
  exact ⟨i, by simp [hi, hl], rfl⟩

theorem put_upto (m : Map) (i k v t : Nat) (hv : v ≠ 0 ∧ v ≠ 1) (hl : m.live i = false) (hi : i < t) :
    ((m.put i k v).upto t).Perm ((v, k) :: m.upto t) := by
  induction t with
  | zero => omega
  | succ t ih =>
    rw [upto_succ, upto_succ, put_live _ _ _ _ hv]
    by_cases h : t = i
    · subst h
      have hs : (m.put t k v).slots t = (v, k) := setSlot_same _ _ _
      have hc : (m.put t k v).upto t = m.upto t := by
        apply upto_congr
        intro j hj
        exact setSlot_ne _ _ _ _ (by omega)
      simp only [if_true, hs, hl, Bool.false_eq_true, if_false, List.append_nil, hc]
      exact List.perm_append_singleton _ _
    · have hs : (m.put i k v).slots t = m.slots t := setSlot_ne _ _ _ _ h
      rw [if_neg h, hs]
      exact (ih (by omega)).append_right _

theorem add_entries (m : Map) (k v : Nat) (hv : v ≠ 0 ∧ v ≠ 1) (hfree : cnt m.nz m.cap < m.cap)
    (hnew : ∀ p ∈ m.entries, p.1 ≠ v) :
    ∃ m', m.addMember k v = some m' ∧ m'.entries.Perm ((v, k) :: m.entries) ∧
      ((∀ i, i < m.cap → (m.slots i).1 ≠ 1) →
        (∀ i, i < m'.cap → (m'.slots i).1 ≠ 1) ∧ (m.ndel = 0 → m'.ndel = 0)) := by
  obtain ⟨i, j, hi, -, -, h⟩ := add_cases m k v hv hfree
  rcases h with ⟨e, -⟩ | ⟨hl, h⟩
  · refine absurd e (hnew _ (mem_entries m i hi ?_))
    unfold Map.live; rw [e]; simpa using hv
  · refine ⟨_, h, put_upto m i k v m.cap hv hl hi, fun h1 => ⟨fun j hj => ?_, fun hn => ?_⟩⟩
    swap
    · show (if (m.slots i).1 = 1 then m.ndel - 1 else m.ndel) = 0
      rw [if_neg (h1 i hi)]; exact hn
    show (setSlot m.slots i (v, k) j).1 ≠ 1
    unfold setSlot
    split
    · exact hv.2
    · exact h1 j hj

theorem reinsert_entries (m : Map) (hd : (m.entries.map Prod.fst).Nodup) (t : Nat) (ht : t ≤ m.cap) :
    ∃ m', reinsert m.slots t ⟨m.nbits + 1, zeros, 0, 0⟩ = some m' ∧ m'.entries.Perm (m.upto t) ∧
      (∀ i, i < m'.cap → (m'.slots i).1 ≠ 1) ∧ m'.ndel = 0 := by
  induction t with
  | zero =>
    refine ⟨_, rfl, ?_, fun i _ => by simp [zeros], rfl⟩
    have : (Map.entries ⟨m.nbits + 1, zeros, 0, 0⟩) = [] := by
      unfold Map.entries Map.upto
      rw [List.map_eq_nil_iff, List.filter_eq_nil_iff]
      intro i _; simp [Map.live, zeros]
    rw [this]; exact List.Perm.refl _
  | succ t ih =>
    obtain ⟨m1, h1, h2, h3, h4⟩ := ih (by omega)
    obtain ⟨m1', g1, g2, g3, g4⟩ := reinsert_total m.slots m.nbits t (by have := ht; unfold Map.cap at this; omega)
    rw [h1] at g1; cases g1
    have hsplit : ∃ r, m.entries = m.upto (t + 1) ++ r := by
      obtain ⟨d, hd⟩ : ∃ d, m.cap = t + 1 + d := ⟨m.cap - (t + 1), by omega⟩
      unfold Map.entries Map.upto
      rw [hd, List.range_add, List.filter_append, List.map_append]
      exact ⟨_, rfl⟩
    rw [reinsert, h1, Option.bind_some, upto_succ]
    by_cases hl : m.live t = true
    · have hv : (m.slots t).1 ≠ 0 ∧ (m.slots t).1 ≠ 1 := by unfold Map.live at hl; simpa using hl
      have hfree : cnt m1.nz m1.cap < m1.cap := by
        have c1 := cnt_le (fun i => decide ((m.slots i).1 ≠ 0 ∧ (m.slots i).1 ≠ 1)) t
        have c2 : m1.cap = 2 * m.cap := by unfold Map.cap; rw [g2, pow_succ]; ring
        omega
      obtain ⟨m2, a1, a2, a3⟩ := add_entries m1 (m.slots t).2 (m.slots t).1 hv hfree (by
        intro p hp e
        have hp' := h2.mem_iff.1 hp
        obtain ⟨r, hr⟩ := hsplit
        rw [hr, upto_succ, if_pos hl, List.map_append, List.map_append] at hd
        have := (List.nodup_append.1 (List.nodup_append.1 hd).1).2.2 p.1 (List.mem_map_of_mem hp') p.1 (by rw [e]; simp)
        exact this rfl)
      refine ⟨m2, a1, ?_, (a3 h3).1, (a3 h3).2 h4⟩
      rw [if_pos hl]
      exact a2.trans ((List.Perm.cons _ h2).trans (List.perm_append_singleton _ _).symm)
    · have hz : (m.slots t).1 = 0 ∨ (m.slots t).1 = 1 := by
        unfold Map.live at hl; simp at hl; tauto
      refine ⟨m1, ?_, by rw [if_neg hl, List.append_nil]; exact h2, h3, h4⟩
      unfold Map.addMember; rw [if_pos hz]

theorem rehash_entries (m : Map) (hd : (m.entries.map Prod.fst).Nodup) :
    ∃ m', m.rehash = some m' ∧ m'.entries.Perm m.entries ∧
      ((∀ i, i < m.cap → (m.slots i).1 ≠ 1) →
        (∀ i, i < m'.cap → (m'.slots i).1 ≠ 1) ∧ (m.ndel = 0 → m'.ndel = 0)) := by
  unfold Map.rehash
  split
  · obtain ⟨m', h1, h2, h3, h4⟩ := reinsert_entries m hd m.cap le_rfl
    exact ⟨m', h1, h2, fun _ => ⟨h3, fun _ => h4⟩⟩
  · exact ⟨m, rfl, List.Perm.refl _, fun h => ⟨h, id⟩⟩

/-- Inserting a value that is not in the table adds one slot, whatever the key. -/
theorem insert_entries (m : Map) (k v : Nat) (hv : v ≠ 0 ∧ v ≠ 1) (hI : m.Inv)
    (hd : (m.entries.map Prod.fst).Nodup) (hnew : ∀ p ∈ m.entries, p.1 ≠ v) :
    ∃ m', m.insert k v = some m' ∧ m'.entries.Perm ((v, k) :: m.entries) ∧
      ((∀ i, i < m.cap → (m.slots i).1 ≠ 1) →
        (∀ i, i < m'.cap → (m'.slots i).1 ≠ 1) ∧ (m.ndel = 0 → m'.ndel = 0)) := by
  obtain ⟨m1, a1, a2, a3⟩ := add_entries m k v hv hI.free hnew
  have hd1 : (m1.entries.map Prod.fst).Nodup := by
    rw [(a2.map Prod.fst).nodup_iff]
    simp only [List.map_cons, List.nodup_cons]
    refine ⟨?_, hd⟩
    rw [List.mem_map]
    rintro ⟨p, hp, e⟩
    exact hnew p hp e
  obtain ⟨m', b1, b2, b3⟩ := rehash_entries m1 hd1
  refine ⟨m', by unfold Map.insert; rw [a1]; exact b1, b2.trans a2, fun h => ⟨(b3 (a3 h).1).1, fun hn => (b3 (a3 h).1).2 ((a3 h).2 hn)⟩⟩

/-- Without tombstones the count is the number of slots in use. -/
theorem numItems_entries (m : Map) (hI : m.Inv) (ht : ∀ i, i < m.cap → (m.slots i).1 ≠ 1) (hn : m.ndel = 0) :
    m.numItems = BitVec.ofNat 64 m.entries.length := by
  have h1 : cnt m.nz m.cap = cnt m.live m.cap := cnt_congr _ _ _ (fun i hi => by
    have := ht i hi
    unfold Map.nz Map.live; simp [this])
  have h2 : cnt m.live m.cap = m.entries.length := by unfold cnt Map.entries Map.upto; rw [List.length_map]
  have := hI.sum
  unfold Map.Sum at this
  rw [hn, h1, h2] at this
  unfold Map.numItems
  simpa using this

/-- What a lookup returns is NULL, a tombstone or a value stored with the key. -/
theorem get_entries (m : Map) (k v : Nat) (hg : m.get k = some v) : v = 0 ∨ v = 1 ∨ (v, k) ∈ m.entries := by
  unfold Map.get at hg
  rw [Option.map_eq_some_iff] at hg
  obtain ⟨i, hi, rfl⟩ := hg
  unfold Map.locate at hi
  obtain ⟨hlt, hs, -⟩ := search_some _ _ _ _ hi
  by_cases h0 : (m.slots i).1 = 0
  · exact Or.inl h0
  by_cases h1 : (m.slots i).1 = 1
  · exact Or.inr (Or.inl h1)
  refine Or.inr (Or.inr ?_)
  have hk : (m.slots i).2 = k := by simpa [h0] using hs
  have := mem_entries m i hlt (by unfold Map.live; simp [h0, h1])
  rwa [show m.slots i = ((m.slots i).1, k) by rw [← hk]] at this

/-! ## Slots in use are on the path of their key -/

def Map.Path (m : Map) : Prop := ∀ i, i < m.cap → m.live i = true →
  ∃ j, i = probe m.nbits (start m.nbits (m.slots i).2) j ∧
    ∀ j', j' < j → (m.slots (probe m.nbits (start m.nbits (m.slots i).2) j')).1 ≠ 0

theorem path_empty (n : Nat) : Map.Path ⟨n, zeros, 0, 0⟩ := by
  intro i _ h; simp [Map.live, zeros] at h

theorem add_path (m m' : Map) (k v : Nat) (hfree : cnt m.nz m.cap < m.cap) (h : m.Path)
    (ha : m.addMember k v = some m') : m'.Path := by
  by_cases hv : v ≠ 0 ∧ v ≠ 1
  · obtain ⟨i, j, hi, hij, hb, hc⟩ := add_cases m k v hv hfree
    rcases hc with ⟨-, e⟩ | ⟨hl, e⟩
    · rw [e] at ha; cases ha; exact h
    · rw [e] at ha; cases ha
      intro r hr hlr
      have hne : ∀ t, (m.slots t).1 ≠ 0 → ((m.put i k v).slots t).1 ≠ 0 := by
        intro t ht
        show (setSlot m.slots i (v, k) t).1 ≠ 0
        unfold setSlot; split
        · exact hv.1
        · exact ht
      by_cases hri : r = i
      · have hs : (m.put i k v).slots r = (v, k) := by rw [hri]; exact setSlot_same _ _ _
        rw [hs]
        refine ⟨j, by rw [hri]; exact hij, fun j' hj' => hne _ ?_⟩
        have := (hb j' hj').1
        unfold Map.live at this; simp at this; exact this.1
      · have hs : (m.put i k v).slots r = m.slots r := setSlot_ne _ _ _ _ hri
        rw [put_live _ _ _ _ hv, if_neg hri] at hlr
        obtain ⟨j2, e2, hb2⟩ := h r hr hlr
        rw [hs]
        exact ⟨j2, e2, fun j' hj' => hne _ (hb2 j' hj')⟩
  · unfold Map.addMember at ha
    rw [if_pos (by tauto)] at ha
    cases ha; exact h

theorem reinsert_path (old : Nat → Nat × Nat) (n t : Nat) (ht : t ≤ 2 ^ n) (m' : Map)
    (h : reinsert old t ⟨n + 1, zeros, 0, 0⟩ = some m') : m'.Path := by
  induction t generalizing m' with
  | zero => cases h; exact path_empty _
  | succ t ih =>
    obtain ⟨m1, h1, h2, h3, h4⟩ := reinsert_total old n t (by omega)
    rw [reinsert, h1, Option.bind_some] at h
    refine add_path m1 m' _ _ ?_ (ih (by omega) m1 h1) h
    have := cnt_le (fun i => decide ((old i).1 ≠ 0 ∧ (old i).1 ≠ 1)) t
    have c2 : m1.cap = 2 * 2 ^ n := by unfold Map.cap; rw [h2, pow_succ]; ring
    omega

theorem insert_path (m m' : Map) (k v : Nat) (hI : m.Inv) (h : m.Path) (hi : m.insert k v = some m') : m'.Path := by
  unfold Map.insert at hi
  rcases ha : m.addMember k v with _ | m1
  · rw [ha] at hi; cases hi
  · rw [ha, Option.bind_some] at hi
    have h1 := add_path m m1 k v hI.free h ha
    unfold Map.rehash at hi
    split at hi
    · exact reinsert_path _ _ _ le_rfl _ hi
    · cases hi; exact h1

/-- A key in the table is found: the lookup returns a value stored with it. -/
theorem get_present (m : Map) (hP : m.Path) (v k : Nat) (hm : (v, k) ∈ m.entries) :
    ∃ w, m.get k = some w ∧ w ≠ 0 := by
  unfold Map.entries Map.upto at hm
  rw [List.mem_map] at hm
  obtain ⟨i, hi, he⟩ := hm
  rw [List.mem_filter, List.mem_range] at hi
  obtain ⟨j, hj, hb⟩ := hP i hi.1 hi.2
  have hk : (m.slots i).2 = k := by rw [he]
  rw [hk] at hj hb
  obtain ⟨r, hr⟩ := search_isSome m.nbits (fun i => (m.slots i).1 == 0 || (m.slots i).2 == k) k i hi.1 (by simp [hk])
  obtain ⟨hlt, hs, j2, -, hj2, hb2⟩ := search_some _ _ _ _ hr
  refine ⟨(m.slots r).1, by unfold Map.get Map.locate; rw [hr]; rfl, ?_⟩
  rcases Nat.lt_trichotomy j2 j with h | h | h
  · rw [hj2]; exact hb j2 h
  · have : r = i := by rw [hj2, hj, h]
    rw [this]
    have := hi.2
    unfold Map.live at this; simp at this; exact this.1
  · have := hb2 j h
    rw [← hj] at this; simp [hk] at this

end Verif.Hash
