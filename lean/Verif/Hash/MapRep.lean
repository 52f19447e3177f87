import Verif.Hash.MapLemmas

/-! # Hash map: refinement to a finite map -/

namespace Verif.Hash

/-- The table represents the finite map `S` with `n` keys. -/
structure Map.Rep (m : Map) (S : Nat → Option Nat) (n : Nat) : Prop where
  /-- entries of the table belong to the map -/
  sound : ∀ i, i < m.cap → m.live i = true → S (m.slots i).2 = some (m.slots i).1
  /-- entries of the map are found on the path of their key -/
  found : ∀ k v, S k = some v → ∃ j, m.slots (probe m.nbits (start m.nbits k) j) = (v, k) ∧
    ∀ j', j' < j → (m.slots (probe m.nbits (start m.nbits k) j')).1 ≠ 0 ∧
      (m.slots (probe m.nbits (start m.nbits k) j')).2 ≠ k
  val : ∀ k v, S k = some v → v ≠ 0 ∧ v ≠ 1
  uniq : ∀ i i', i < m.cap → i' < m.cap → m.live i = true → m.live i' = true →
    (m.slots i).2 = (m.slots i').2 → i = i'
  count : cnt m.live m.cap = n
  items : m.nitems = BitVec.ofNat 64 n

theorem rep_empty (nb : Nat) : Map.Rep ⟨nb, zeros, 0, 0⟩ (fun _ => none) 0 where
  sound := by intro i _ h; simp [Map.live, zeros] at h
  found := by intro k v h; simp at h
  val := by intro k v h; simp at h
  uniq := by intro i i' _ _ h; simp [Map.live, zeros] at h
  count := cnt_false _ _ (fun i _ => by simp [Map.live, zeros])
  items := rfl

/-- Update of a finite map. -/
def upd (S : Nat → Option Nat) (k : Nat) (o : Option Nat) : Nat → Option Nat :=
  fun k' => if k' = k then o else S k'

theorem add_fresh (m : Map) (S : Nat → Option Nat) (n k v : Nat) (hR : m.Rep S n)
    (hv : v ≠ 0 ∧ v ≠ 1) (hk : S k = none) (hinj : ∀ k', S k' ≠ some v)
    (hfree : cnt m.nz m.cap < m.cap) :
    ∃ m', m.addMember k v = some m' ∧ m'.nbits = m.nbits ∧ m'.Rep (upd S k (some v)) (n + 1) ∧
      ((∀ i, i < m.cap → (m.slots i).1 ≠ 1) → ∀ i, i < m.cap → (m'.slots i).1 ≠ 1) := by
  obtain ⟨i, j, hi, hij, hpath, h⟩ := add_cases m k v hv hfree
  rcases h with ⟨hval, -⟩ | ⟨hl, h⟩
  · -- the value would be in the map already
    exfalso
    have : m.live i = true := by unfold Map.live; rw [hval]; simpa using hv
    have := hR.sound i hi this
    rw [hval] at this
    exact hinj _ this
  · refine ⟨_, h, rfl, ?_, ?_⟩
    · have hslot : ∀ t, (m.put i k v).slots t = if t = i then (v, k) else m.slots t := fun t => rfl
      have hlive := put_live m i k v hv
      refine ⟨?_, ?_, ?_, ?_, ?_, ?_⟩
      · intro t ht hlt
        rw [hslot]
        by_cases hti : t = i
        · simp [hti, upd]
        · rw [hlive, if_neg hti] at hlt
          have hs := hR.sound t ht hlt
          rw [if_neg hti]
          unfold upd
          rw [if_neg (by intro hh; rw [hh, hk] at hs; cases hs)]
          exact hs
      · intro k' v' hkv
        by_cases hkk : k' = k
        · subst hkk
          have hvv : v' = v := by unfold upd at hkv; simpa using hkv.symm
          subst hvv
          refine ⟨j, ?_, ?_⟩
          · show (m.put i k' v').slots (probe m.nbits (start m.nbits k') j) = _
            rw [hslot, if_pos hij.symm]
          · intro j' hj'
            show ((m.put i k' v').slots (probe m.nbits (start m.nbits k') j')).1 ≠ 0 ∧ _
            obtain ⟨hp1, hp2⟩ := hpath j' hj'
            have hne : probe m.nbits (start m.nbits k') j' ≠ i := by
              intro hh; rw [hh, hl] at hp1; cases hp1
            show _ ∧ ((m.put i k' v').slots (probe m.nbits (start m.nbits k') j')).2 ≠ k'
            rw [hslot, if_neg hne]
            refine ⟨?_, ?_⟩
            · unfold Map.live at hp1; simp at hp1; exact hp1.1
            · intro hh
              have := hR.sound _ (probe_lt _ _ _) hp1
              rw [hh, hk] at this; cases this
        · have hkv' : S k' = some v' := by unfold upd at hkv; simpa [hkk] using hkv
          obtain ⟨j1, h1, h2⟩ := hR.found k' v' hkv'
          refine ⟨j1, ?_, ?_⟩
          · show (m.put i k v).slots (probe m.nbits (start m.nbits k') j1) = _
            rw [hslot, if_neg, h1]
            intro hh
            rw [← hh] at hl
            have hv' := hR.val k' v' hkv'
            unfold Map.live at hl; rw [h1] at hl
            simp at hl; exact hv'.2 (hl hv'.1)
          · intro j' hj'
            show ((m.put i k v).slots (probe m.nbits (start m.nbits k') j')).1 ≠ 0 ∧
              ((m.put i k v).slots (probe m.nbits (start m.nbits k') j')).2 ≠ k'
            rw [hslot]
            split
            · exact ⟨hv.1, fun hh => hkk hh.symm⟩
            · exact h2 j' hj'
      · intro k' v' hkv
        by_cases hkk : k' = k
        · have hvv : v' = v := by unfold upd at hkv; simpa [hkk] using hkv.symm
          rw [hvv]; exact hv
        · exact hR.val k' v' (by unfold upd at hkv; simpa [hkk] using hkv)
      · intro a b ha hb hla hlb hkey
        rw [hlive] at hla hlb
        rw [hslot, hslot] at hkey
        by_cases hai : a = i <;> by_cases hbi : b = i
        · rw [hai, hbi]
        · rw [if_pos hai, if_neg hbi] at hkey
          rw [if_neg hbi] at hlb
          have := hR.sound b hb hlb
          rw [← hkey] at this
          rw [hk] at this; cases this
        · rw [if_neg hai, if_pos hbi] at hkey
          rw [if_neg hai] at hla
          have := hR.sound a ha hla
          rw [hkey] at this
          rw [hk] at this; cases this
        · rw [if_neg hai, if_neg hbi] at hkey
          rw [if_neg hai] at hla; rw [if_neg hbi] at hlb
          exact hR.uniq a b ha hb hla hlb hkey
      · show cnt (m.put i k v).live m.cap = _
        rw [cnt_flip m.live (m.put i k v).live m.cap i hi hl (by rw [hlive]; simp)
          (by intro t ht; rw [hlive, if_neg ht]), hR.count]
      · show m.nitems + 1 = _
        rw [hR.items, BitVec.ofNat_add]; rfl
    · intro hno t ht
      show (setSlot m.slots i (v, k) t).1 ≠ 1
      unfold setSlot; split
      · exact hv.2
      · exact hno t ht

/-- The part of `S` stored in the first `t` slots. -/
noncomputable def part (m : Map) (S : Nat → Option Nat) (t : Nat) : Nat → Option Nat := by
  classical
  exact fun k => if ∃ i, i < t ∧ m.live i = true ∧ (m.slots i).2 = k then S k else none

theorem part_pos (m : Map) (S : Nat → Option Nat) (t k : Nat)
    (h : ∃ i, i < t ∧ m.live i = true ∧ (m.slots i).2 = k) : part m S t k = S k := by
  unfold part; rw [if_pos h]

theorem part_neg (m : Map) (S : Nat → Option Nat) (t k : Nat)
    (h : ¬ ∃ i, i < t ∧ m.live i = true ∧ (m.slots i).2 = k) : part m S t k = none := by
  unfold part; rw [if_neg h]

theorem part_congr (m : Map) (S : Nat → Option Nat) (t t' k : Nat)
    (h : (∃ i, i < t ∧ m.live i = true ∧ (m.slots i).2 = k) ↔
      (∃ i, i < t' ∧ m.live i = true ∧ (m.slots i).2 = k)) : part m S t k = part m S t' k := by
  by_cases h1 : ∃ i, i < t ∧ m.live i = true ∧ (m.slots i).2 = k
  · rw [part_pos _ _ _ _ h1, part_pos _ _ _ _ (h.1 h1)]
  · rw [part_neg _ _ _ _ h1, part_neg _ _ _ _ (fun hh => h1 (h.2 hh))]

/-- Reinserting the table in a new one. -/
theorem reinsert_rep (m : Map) (S : Nat → Option Nat) (n : Nat) (hR : m.Rep S n)
    (hinj : ∀ k k' v, S k = some v → S k' = some v → k = k') (t : Nat) (ht : t ≤ m.cap) :
    ∃ m', reinsert m.slots t ⟨m.nbits + 1, zeros, 0, 0⟩ = some m' ∧ m'.nbits = m.nbits + 1 ∧
      m'.Rep (part m S (t))
        (cnt m.live t) ∧
      (∀ i, i < m'.cap → (m'.slots i).1 ≠ 1) ∧ m'.Sum ∧ cnt m'.nz m'.cap ≤ t := by
  induction t with
  | zero =>
    refine ⟨_, rfl, rfl, ?_, ?_, empty_sum _, le_of_eq (empty_cnt _)⟩
    · have : (part m S (0))
          = fun _ => none := by
        funext k; rw [part_neg]; rintro ⟨i, hi, -⟩; omega
      rw [this]; exact rep_empty _
    · intro i _; simp [zeros]
  | succ t ih =>
    obtain ⟨m1, h1, h2, h3, h4, h5, h6⟩ := ih (by omega)
    have hcap1 : m1.cap = m.cap * 2 := by unfold Map.cap; rw [h2, pow_succ]
    rw [reinsert, h1]
    simp only [Option.bind_some]
    by_cases hl : m.live t = true
    · have hv : (m.slots t).1 ≠ 0 ∧ (m.slots t).1 ≠ 1 := by unfold Map.live at hl; simpa using hl
      have hSt := hR.sound t (by omega) hl
      obtain ⟨m', a1, a2, a3, a4⟩ := add_fresh m1 _ _ (m.slots t).2 (m.slots t).1 h3 hv
        (by
          rw [part_neg]
          rintro ⟨i, hi, hli, hki⟩
          have := hR.uniq i t (by omega) (by omega) hli hl hki
          omega)
        (by
          intro k'
          by_cases hex : ∃ i, i < t ∧ m.live i = true ∧ (m.slots i).2 = k'
          · rw [part_pos _ _ _ _ hex]
            obtain ⟨i, hi, hli, hki⟩ := hex
            intro hS
            have hk' := hinj k' _ _ hS hSt
            have := hR.uniq i t (by omega) (by omega) hli hl (by rw [hki, hk'])
            omega
          · rw [part_neg _ _ _ _ hex]; simp)
        (by omega)
      refine ⟨m', a1, by rw [a2, h2], ?_, ?_, ?_⟩
      · have e : (part m S (t + 1))
            = upd (part m S (t))
              (m.slots t).2 (some (m.slots t).1) := by
          funext k
          unfold upd
          by_cases hk : k = (m.slots t).2
          · rw [if_pos hk, part_pos _ _ _ _ ⟨t, by omega, hl, hk.symm⟩, hk, hSt]
          · rw [if_neg hk]
            apply part_congr
            constructor
            · rintro ⟨i, hi, hli, hki⟩
              refine ⟨i, ?_, hli, hki⟩
              rcases Nat.lt_or_ge i t with h | h
              · exact h
              · have : i = t := by omega
                rw [this] at hki; exact absurd hki.symm hk
            · rintro ⟨i, hi, hli, hki⟩
              exact ⟨i, by omega, hli, hki⟩
        rw [e, cnt_succ, hl]
        exact a3
      · have : m'.cap = m1.cap := by unfold Map.cap; rw [a2]
        rw [this]; exact a4 h4
      · obtain ⟨m'', b1, b2, b3, b4⟩ := add_total m1 (m.slots t).2 (m.slots t).1 h5 (by omega)
        have : m'' = m' := by rw [a1] at b1; exact (Option.some.inj b1).symm
        subst this
        refine ⟨b3, ?_⟩
        split at b4 <;> omega
    · have hv : (m.slots t).1 = 0 ∨ (m.slots t).1 = 1 := by
        unfold Map.live at hl; simp at hl; tauto
      refine ⟨m1, by unfold Map.addMember; rw [if_pos hv], h2, ?_, h4, h5, by omega⟩
      have e : (part m S (t + 1))
          = (part m S (t)) := by
        funext k
        apply part_congr
        constructor
        · rintro ⟨i, hi, hli, hki⟩
          refine ⟨i, ?_, hli, hki⟩
          rcases Nat.lt_or_ge i t with h | h
          · exact h
          · have : i = t := by omega
            rw [this] at hli; exact absurd hli hl
        · rintro ⟨i, hi, hli, hki⟩
          exact ⟨i, by omega, hli, hki⟩
      rw [e, cnt_succ]
      simp only [hl]
      exact h3

theorem rehash_rep (m : Map) (S : Nat → Option Nat) (n : Nat) (hR : m.Rep S n)
    (hinj : ∀ k k' v, S k = some v → S k' = some v → k = k') :
    ∃ m', m.rehash = some m' ∧ m'.Rep S n ∧
      ((∀ i, i < m.cap → (m.slots i).1 ≠ 1) → ∀ i, i < m'.cap → (m'.slots i).1 ≠ 1) := by
  unfold Map.rehash
  split
  · obtain ⟨m', h1, h2, h3, h4, -, -⟩ := reinsert_rep m S n hR hinj m.cap le_rfl
    refine ⟨m', h1, ?_, fun _ => h4⟩
    have e : (part m S (m.cap)) = S := by
      funext k
      by_cases hno : ∃ i, i < m.cap ∧ m.live i = true ∧ (m.slots i).2 = k
      · rw [part_pos _ _ _ _ hno]
      · rw [part_neg _ _ _ _ hno]
        rcases hS : S k with _ | v
        · rfl
        · exfalso
          obtain ⟨j, hj, -⟩ := hR.found k v hS
          apply hno
          refine ⟨_, probe_lt _ _ _, ?_, by rw [hj]⟩
          unfold Map.live; rw [hj]; simpa using hR.val k v hS
    rw [e, hR.count] at h3
    exact h3
  · exact ⟨m, rfl, hR, fun h => h⟩

theorem insert_fresh (m : Map) (S : Nat → Option Nat) (n k v : Nat) (hR : m.Rep S n)
    (hinj : ∀ k k' v, S k = some v → S k' = some v → k = k')
    (hv : v ≠ 0 ∧ v ≠ 1) (hk : S k = none) (hnew : ∀ k', S k' ≠ some v) (hI : m.Inv) :
    ∃ m', m.insert k v = some m' ∧ m'.Rep (upd S k (some v)) (n + 1) ∧
      ((∀ i, i < m.cap → (m.slots i).1 ≠ 1) → ∀ i, i < m'.cap → (m'.slots i).1 ≠ 1) := by
  obtain ⟨m1, a1, a2, a3, a4⟩ := add_fresh m S n k v hR hv hk hnew hI.free
  obtain ⟨m', b1, b2, b3⟩ := rehash_rep m1 _ _ a3 (by
    intro k1 k2 w h1 h2
    unfold upd at h1 h2
    by_cases e1 : k1 = k <;> by_cases e2 : k2 = k
    · rw [e1, e2]
    · rw [if_pos e1] at h1; rw [if_neg e2] at h2
      cases h1; exact absurd h2 (hnew k2)
    · rw [if_neg e1] at h1; rw [if_pos e2] at h2
      cases h2; exact absurd h1 (hnew k1)
    · rw [if_neg e1] at h1; rw [if_neg e2] at h2
      exact hinj k1 k2 w h1 h2)
  have hcap : m1.cap = m.cap := by unfold Map.cap; rw [a2]
  rw [hcap] at b3
  exact ⟨m', by unfold Map.insert; rw [a1]; exact b1, b2, fun h => b3 (a4 h)⟩

/-- Inserting again a pair that is present changes nothing while nothing was removed. -/
theorem insert_again (m : Map) (S : Nat → Option Nat) (n k v : Nat) (hR : m.Rep S n)
    (hk : S k = some v) (hI : m.Inv) (hb : m.nbits < 64) (hno : ∀ i, i < m.cap → (m.slots i).1 ≠ 1) :
    m.insert k v = some m := by
  obtain ⟨j, h1, h2⟩ := hR.found k v hk
  have hv := hR.val k v hk
  have hadd : m.addMember k v = some m := by
    obtain ⟨i, j0, hi, hij, hp, h⟩ := add_cases m k v hv hI.free
    rcases h with ⟨-, h⟩ | ⟨hl, -⟩
    · exact h
    · exfalso
      have hz : (m.slots i).1 = 0 := by
        have := hno i hi
        unfold Map.live at hl; simp at hl; by_contra hc; exact this (hl hc)
      rcases Nat.lt_trichotomy j j0 with hlt | heq | hgt
      · have := (hp j hlt).2; rw [h1] at this; exact this rfl
      · subst heq; rw [hij, h1] at hz; exact hv.1 hz
      · have := (h2 j0 hgt).1; rw [← hij] at this; exact this hz
  unfold Map.insert
  rw [hadd]
  show m.rehash = some m
  unfold Map.rehash
  have hlt : cnt m.nz m.cap < 2 ^ 64 :=
    lt_trans hI.free (Nat.pow_lt_pow_right (by decide) hb)
  rw [hI.sum, BitVec.toNat_ofNat, Nat.mod_eq_of_lt hlt, if_neg]
  have := hI.load
  unfold Map.cap at *
  omega

theorem locate_found (m : Map) (S : Nat → Option Nat) (n k v : Nat) (hR : m.Rep S n) (hk : S k = some v) :
    ∃ i, i < m.cap ∧ m.locate k = some i ∧ m.slots i = (v, k) := by
  obtain ⟨j, h1, h2⟩ := hR.found k v hk
  refine ⟨_, probe_lt m.nbits (start m.nbits k) j, ?_, h1⟩
  unfold Map.locate
  apply search_eq
  · simp [h1]
  · intro j' hj'
    have := h2 j' hj'
    simp [this]

/-- Turning the slot of `k` into a tombstone (with any key that is not in the map) removes
`k` and nothing else. -/
theorem tomb_rep (m : Map) (S : Nat → Option Nat) (n k v i κ : Nat) (hR : m.Rep S n) (hk : S k = some v)
    (hi : i < m.cap) (hs : m.slots i = (v, k)) (hκ : upd S k none κ = none) :
    Map.Rep { m with slots := setSlot m.slots i (1, κ), nitems := m.nitems - 1, ndel := m.ndel + 1 }
      (upd S k none) (n - 1) := by
  have hv := hR.val k v hk
  generalize hm' : ({ m with slots := setSlot m.slots i (1, κ), nitems := m.nitems - 1, ndel := m.ndel + 1 } : Map) = m'
  have hslot : ∀ t, m'.slots t = if t = i then (1, κ) else m.slots t := by subst hm'; exact fun t => rfl
  have hnb : m'.nbits = m.nbits := by subst hm'; rfl
  have hcap : m'.cap = m.cap := by unfold Map.cap; rw [hnb]
  have hlive : ∀ t, m'.live t = if t = i then false else m.live t := by
    intro t; unfold Map.live; rw [hslot]; split <;> simp
  have hli : m.live i = true := by unfold Map.live; rw [hs]; simpa using hv
  have hcnt := cnt_flip m'.live m.live m.cap i hi (by rw [hlive]; simp) hli
    (by intro t ht; rw [hlive, if_neg ht])
  refine ⟨?_, ?_, ?_, ?_, ?_, ?_⟩
  · intro t ht hlt
    rw [hlive] at hlt
    by_cases hti : t = i
    · simp [hti] at hlt
    · rw [if_neg hti] at hlt
      rw [hslot, if_neg hti]
      have hsd := hR.sound t (by omega) hlt
      unfold upd
      rw [if_neg, hsd]
      intro hh
      exact hti (hR.uniq t i (by omega) hi hlt hli (by rw [hh, hs]))
  · intro k' v' hkv
    by_cases hkk : k' = k
    · unfold upd at hkv; simp [hkk] at hkv
    · have hkv' : S k' = some v' := by unfold upd at hkv; simpa [hkk] using hkv
      obtain ⟨j1, h1, h2⟩ := hR.found k' v' hkv'
      rw [hnb]
      refine ⟨j1, ?_, ?_⟩
      · rw [hslot, if_neg, h1]
        intro hh; rw [hh, hs] at h1
        exact hkk (congrArg Prod.snd h1).symm
      · intro j' hj'
        rw [hslot]
        split
        · exact ⟨by simp, fun hh => by
            have hh' : κ = k' := hh
            rw [hh'] at hκ; rw [hκ] at hkv; cases hkv⟩
        · exact h2 j' hj'
  · intro k' v' hkv
    by_cases hkk : k' = k
    · unfold upd at hkv; simp [hkk] at hkv
    · exact hR.val k' v' (by unfold upd at hkv; simpa [hkk] using hkv)
  · intro a b ha hb hla hlb hkey
    rw [hlive] at hla hlb
    by_cases hai : a = i
    · simp [hai] at hla
    · by_cases hbi : b = i
      · simp [hbi] at hlb
      · rw [if_neg hai] at hla; rw [if_neg hbi] at hlb
        rw [hslot, hslot, if_neg hai, if_neg hbi] at hkey
        exact hR.uniq a b (by omega) (by omega) hla hlb hkey
  · have := hR.count; rw [hcap]; omega
  · have h1 : m'.nitems = m.nitems - 1 := by subst hm'; rfl
    have hc := hR.count
    have : 1 ≤ n := by omega
    obtain ⟨n', rfl⟩ : ∃ n', n = n' + 1 := ⟨n - 1, by omega⟩
    rw [h1, hR.items, BitVec.ofNat_add]
    show BitVec.ofNat 64 n' + 1#64 - 1#64 = _
    rw [BitVec.add_sub_cancel]; rfl

theorem remove_present (m : Map) (S : Nat → Option Nat) (n k v : Nat) (hR : m.Rep S n) (hk : S k = some v) :
    ∃ m', m.remove k = some m' ∧ m'.Rep (upd S k none) (n - 1) := by
  obtain ⟨i, hi, hloc, hs⟩ := locate_found m S n k v hR hk
  have hv := hR.val k v hk
  unfold Map.remove
  rw [hloc]
  simp only [Option.map_some, hs, hv.1, if_false]
  exact ⟨_, rfl, tomb_rep m S n k v i k hR hk hi hs (by simp [upd])⟩

end Verif.Hash
