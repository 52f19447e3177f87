import Verif.Hash.Lemmas
import Mathlib.Data.BitVec

/-! # Hash map: invariants -/

namespace Verif.Hash

def Map.cap (m : Map) : Nat := 2 ^ m.nbits
/-- Slot not empty. -/
def Map.nz (m : Map) (i : Nat) : Bool := decide ((m.slots i).1 ≠ 0)
/-- Slot in use. -/
def Map.live (m : Map) (i : Nat) : Bool := decide ((m.slots i).1 ≠ 0 ∧ (m.slots i).1 ≠ 1)

/-- The two counters together count the slots that are not empty. -/
def Map.Sum (m : Map) : Prop := m.nitems + m.ndel = BitVec.ofNat 64 (cnt m.nz m.cap)

theorem setSlot_same (s : Nat → Nat × Nat) (i : Nat) (x : Nat × Nat) : setSlot s i x i = x := by
  simp [setSlot]
theorem setSlot_ne (s : Nat → Nat × Nat) (i j : Nat) (x : Nat × Nat) (h : j ≠ i) : setSlot s i x j = s j := by
  simp [setSlot, h]

/-- What an insertion does once the loop has found slot `i`. -/
def Map.put (m : Map) (i key value : Nat) : Map :=
  { m with
    slots := setSlot m.slots i (value, key)
    nitems := m.nitems + 1
    ndel := if (m.slots i).1 = 1 then m.ndel - 1 else m.ndel }

theorem add_cases (m : Map) (key v : Nat) (hv : v ≠ 0 ∧ v ≠ 1) (hfree : cnt m.nz m.cap < m.cap) :
    ∃ i j, i < m.cap ∧ i = probe m.nbits (start m.nbits key) j ∧
      (∀ j', j' < j → m.live (probe m.nbits (start m.nbits key) j') = true ∧
        (m.slots (probe m.nbits (start m.nbits key) j')).1 ≠ v) ∧
      (((m.slots i).1 = v ∧ m.addMember key v = some m) ∨
       (m.live i = false ∧ m.addMember key v = some (m.put i key v))) := by
  obtain ⟨e, he, hez⟩ := cnt_lt_exists _ _ hfree
  have hst : (fun i => (m.slots i).1 == 0 || (m.slots i).1 == 1 || (m.slots i).1 == v) e = true := by
    unfold Map.nz at hez; simp at hez; simp [hez]
  obtain ⟨i, hi⟩ := search_isSome m.nbits
    (fun i => (m.slots i).1 == 0 || (m.slots i).1 == 1 || (m.slots i).1 == v) key e he hst
  obtain ⟨hlt, hs, j, -, hij, hb⟩ := search_some _ _ _ _ hi
  refine ⟨i, j, hlt, hij, ?_, ?_⟩
  · intro j' hj'
    have := hb j' hj'
    simp at this
    unfold Map.live; simp; tauto
  · have hn : ¬ (v = 0 ∨ v = 1) := by tauto
    by_cases hiv : (m.slots i).1 = v
    · left; refine ⟨hiv, ?_⟩
      unfold Map.addMember; rw [if_neg hn, hi]; simp [hiv]
    · right
      simp [hiv] at hs
      refine ⟨by unfold Map.live; simp; tauto, ?_⟩
      unfold Map.addMember; rw [if_neg hn, hi]; simp [hiv, Map.put]

theorem put_nz (m : Map) (i key v : Nat) (hv : v ≠ 0) (j : Nat) :
    (m.put i key v).nz j = if j = i then true else m.nz j := by
  unfold Map.nz Map.put setSlot; simp only; split <;> simp [hv]

theorem put_live (m : Map) (i key v : Nat) (hv : v ≠ 0 ∧ v ≠ 1) (j : Nat) :
    (m.put i key v).live j = if j = i then true else m.live j := by
  unfold Map.live Map.put setSlot; simp only; split <;> simp [hv]

theorem put_sum (m : Map) (i key v : Nat) (hv : v ≠ 0 ∧ v ≠ 1) (hi : i < m.cap) (hl : m.live i = false)
    (hs : m.Sum) : (m.put i key v).Sum ∧ cnt (m.put i key v).nz m.cap ≤ cnt m.nz m.cap + 1 := by
  have hcap : (m.put i key v).cap = m.cap := rfl
  unfold Map.Sum
  rw [hcap]
  by_cases h1 : (m.slots i).1 = 1
  · have hc : cnt (m.put i key v).nz m.cap = cnt m.nz m.cap := by
      apply cnt_congr; intro j _; rw [put_nz _ _ _ _ hv.1]; split
      · rename_i h; subst h; unfold Map.nz; simp [h1]
      · rfl
    rw [hc]
    refine ⟨?_, by omega⟩
    rw [← hs]
    simp only [Map.put, h1, if_true]; ring
  · have h0 : (m.slots i).1 = 0 := by
      unfold Map.live at hl; simp at hl; by_contra h; exact h1 (hl h)
    have hc : cnt (m.put i key v).nz m.cap = cnt m.nz m.cap + 1 := by
      apply cnt_flip _ _ _ i hi
      · unfold Map.nz; simp [h0]
      · rw [put_nz _ _ _ _ hv.1]; simp
      · intro j hj; rw [put_nz _ _ _ _ hv.1]; simp [hj]
    rw [hc]
    refine ⟨?_, by omega⟩
    rw [BitVec.ofNat_add, ← hs]
    simp only [Map.put, h1, if_false]
    show m.nitems + 1#64 + m.ndel = m.nitems + m.ndel + 1#64
    ring

theorem add_total (m : Map) (key v : Nat) (hs : m.Sum) (hfree : cnt m.nz m.cap < m.cap) :
    ∃ m', m.addMember key v = some m' ∧ m'.nbits = m.nbits ∧ m'.Sum ∧
      cnt m'.nz m'.cap ≤ cnt m.nz m.cap + (if v ≠ 0 ∧ v ≠ 1 then 1 else 0) := by
  by_cases hv : v ≠ 0 ∧ v ≠ 1
  · obtain ⟨i, j, hi, -, -, h⟩ := add_cases m key v hv hfree
    rcases h with ⟨-, h⟩ | ⟨hl, h⟩
    · exact ⟨m, h, rfl, hs, by omega⟩
    · obtain ⟨p1, p2⟩ := put_sum m i key v hv hi hl hs
      exact ⟨_, h, rfl, p1, by rw [if_pos hv]; exact p2⟩
  · have : v = 0 ∨ v = 1 := by tauto
    exact ⟨m, by unfold Map.addMember; rw [if_pos this], rfl, hs, by omega⟩

theorem empty_cnt (n : Nat) : cnt (Map.nz ⟨n, zeros, 0, 0⟩) (2 ^ n) = 0 :=
  cnt_false _ _ (fun i _ => by simp [Map.nz, zeros])

theorem empty_sum (n : Nat) : Map.Sum ⟨n, zeros, 0, 0⟩ := by
  have : cnt (Map.nz ⟨n, zeros, 0, 0⟩) (Map.cap ⟨n, zeros, 0, 0⟩) = 0 := empty_cnt n
  unfold Map.Sum; rw [this]; rfl

theorem reinsert_total (old : Nat → Nat × Nat) (n t : Nat) (ht : t ≤ 2 ^ n) :
    ∃ m', reinsert old t ⟨n + 1, zeros, 0, 0⟩ = some m' ∧ m'.nbits = n + 1 ∧ m'.Sum ∧
      cnt m'.nz m'.cap ≤ cnt (fun i => decide ((old i).1 ≠ 0 ∧ (old i).1 ≠ 1)) t := by
  induction t with
  | zero => exact ⟨_, rfl, rfl, empty_sum _, le_of_eq (empty_cnt (n + 1))⟩
  | succ t ih =>
    obtain ⟨m, h1, h2, h3, h4⟩ := ih (by omega)
    have hcap : m.cap = 2 ^ n * 2 := by unfold Map.cap; rw [h2, pow_succ]
    have hle := cnt_le (fun i => decide ((old i).1 ≠ 0 ∧ (old i).1 ≠ 1)) t
    obtain ⟨m', a1, a2, a3, a4⟩ := add_total m (old t).2 (old t).1 h3 (by omega)
    refine ⟨m', by rw [reinsert, h1]; exact a1, by rw [a2, h2], a3, ?_⟩
    rw [cnt_succ]
    by_cases hv : (old t).1 ≠ 0 ∧ (old t).1 ≠ 1
    · rw [if_pos hv] at a4; rw [if_pos (decide_eq_true hv)]; omega
    · rw [if_neg hv] at a4; omega

/-- Invariant of the code: the table is never full. -/
structure Map.Inv (m : Map) : Prop where
  bits : 3 ≤ m.nbits
  sum : m.Sum
  load : 20 * cnt m.nz m.cap < 17 * m.cap

theorem Map.Inv.free {m : Map} (h : m.Inv) : cnt m.nz m.cap < m.cap := by
  have := h.load; omega

theorem inv_create : Map.create.Inv := by
  refine ⟨by decide, empty_sum 3, ?_⟩
  have : cnt Map.create.nz Map.create.cap = 0 := empty_cnt 3
  rw [this]; decide

theorem live_le_nz (m : Map) (c : Nat) : cnt m.live c ≤ cnt m.nz c := by
  induction c with
  | zero => exact le_rfl
  | succ c ih =>
    rw [cnt_succ, cnt_succ]
    have : m.live c = true → m.nz c = true := by
      unfold Map.live Map.nz; simp; tauto
    by_cases h : m.live c = true
    · simp [h, this h]; omega
    · simp [h]; omega

theorem rehash_inv (m : Map) (hb : 3 ≤ m.nbits) (hs : m.Sum) (hsmall : m.nbits < 64)
    (hle : cnt m.nz m.cap ≤ m.cap) : ∃ m', m.rehash = some m' ∧ m'.Inv ∧
      cnt m'.nz m'.cap ≤ cnt m.nz m.cap ∧
      (m'.nbits = m.nbits ∨ m'.nbits = m.nbits + 1 ∧ 17 * 2 ^ m.nbits ≤ 20 * cnt m.nz m.cap) := by
  have hlt : cnt m.nz m.cap < 2 ^ 64 := lt_of_le_of_lt hle (Nat.pow_lt_pow_right (by decide) hsmall)
  have hval : (m.nitems + m.ndel).toNat = cnt m.nz m.cap := by
    rw [hs, BitVec.toNat_ofNat, Nat.mod_eq_of_lt hlt]
  unfold Map.rehash
  rw [hval]
  split
  · rename_i hfull
    obtain ⟨m', h1, h2, h3, h4⟩ := reinsert_total m.slots m.nbits (2 ^ m.nbits) le_rfl
    have hcap : m'.cap = 2 ^ m.nbits * 2 := by unfold Map.cap; rw [h2, pow_succ]
    have h5 := live_le_nz m m.cap
    have h6 : cnt (fun i => decide ((m.slots i).1 ≠ 0 ∧ (m.slots i).1 ≠ 1)) (2 ^ m.nbits) = cnt m.live m.cap := rfl
    rw [h6] at h4
    have := Nat.two_pow_pos m.nbits
    have hcap2 : m.cap = 2 ^ m.nbits := rfl
    exact ⟨m', h1, ⟨by omega, h3, by omega⟩, by omega, Or.inr ⟨h2, hfull⟩⟩
  · rename_i h
    exact ⟨m, rfl, ⟨hb, hs, by unfold Map.cap at *; omega⟩, le_rfl, Or.inl rfl⟩

/-- Along a history of `L` insertions: the number of occupied slots and the capacity. -/
structure Map.Bnd (m : Map) (L : Nat) : Prop where
  occ : cnt m.nz m.cap ≤ L
  size : m.nbits = 3 ∨ 17 * 2 ^ m.nbits ≤ 40 * L

theorem Map.Bnd.small {m : Map} {L : Nat} (h : m.Bnd L) (hL : L ≤ 2 ^ 28) : m.nbits < 31 := by
  rcases h.size with h | h
  · omega
  · by_contra hc
    have : 2 ^ 31 ≤ 2 ^ m.nbits := Nat.pow_le_pow_right (by decide) (by omega)
    omega

theorem insert_inv (m : Map) (k v L : Nat) (h : m.Inv) (hB : m.Bnd L) (hL : L < 2 ^ 28) :
    ∃ m', m.insert k v = some m' ∧ m'.Inv ∧ m'.Bnd (L + 1) := by
  obtain ⟨m1, a1, a2, a3, a4⟩ := add_total m k v h.sum h.free
  have hsm := hB.small (by omega)
  have hcap : m1.cap = m.cap := by unfold Map.cap; rw [a2]
  have a4' : cnt m1.nz m1.cap ≤ cnt m.nz m.cap + 1 := by split at a4 <;> omega
  obtain ⟨m', b1, b2, b3, b4⟩ := rehash_inv m1 (by rw [a2]; exact h.bits) a3 (by omega) (by
    have := h.free; omega)
  have := hB.occ
  refine ⟨m', by unfold Map.insert; rw [a1]; exact b1, b2, ⟨by omega, ?_⟩⟩
  rw [a2] at b4
  rcases b4 with b4 | ⟨b4, b5⟩
  · rw [b4]
    rcases hB.size with hh | hh
    · exact Or.inl hh
    · right; omega
  · right; rw [b4, pow_succ]; omega

theorem locate_total (m : Map) (k : Nat) (h : m.Inv) : ∃ i, m.locate k = some i := by
  obtain ⟨e, he, hez⟩ := cnt_lt_exists _ _ h.free
  exact search_isSome m.nbits _ k e he (by unfold Map.nz at hez; simp at hez; simp [hez])

theorem remove_inv (m : Map) (k : Nat) (h : m.Inv) : ∃ m', m.remove k = some m' ∧ m'.Inv ∧ m'.nbits = m.nbits ∧
      cnt m'.nz m'.cap = cnt m.nz m.cap := by
  obtain ⟨i, hi⟩ := locate_total m k h
  unfold Map.remove
  rw [hi]
  simp only [Option.map_some]
  split
  · exact ⟨m, rfl, h, rfl, rfl⟩
  · rename_i hne
    have hc : ∀ j, Map.nz { m with slots := setSlot m.slots i (1, (m.slots i).2), nitems := m.nitems - 1, ndel := m.ndel + 1 } j = m.nz j := by
      intro j
      unfold Map.nz setSlot
      simp only
      split
      · rename_i hj; subst hj; simp [hne]
      · rfl
    have hc' := cnt_congr _ _ m.cap (fun j _ => hc j)
    refine ⟨_, rfl, ⟨h.bits, ?_, ?_⟩, rfl, hc'⟩
    · unfold Map.Sum
      show _ = BitVec.ofNat 64 (cnt _ m.cap)
      rw [hc', ← h.sum]
      show m.nitems - 1#64 + (m.ndel + 1#64) = _
      ring
    · show 20 * cnt _ m.cap < 17 * m.cap
      rw [hc']; exact h.load

end Verif.Hash
