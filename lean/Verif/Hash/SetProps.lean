import Verif.Hash.Props

/-! # Hash set: C35

A hash set is a hash map whose keys are the values, except for removal (the map keeps the
key of a removed entry). -/

namespace Verif.Hash

def HSet.toMap (s : HSet) : Map := ⟨s.nbits, fun i => (s.items i, s.items i), s.nitems, s.ndel⟩

theorem add_toMap (s : HSet) (v : Nat) : (s.addMember v).map HSet.toMap = s.toMap.addMember v v := by
  unfold HSet.addMember Map.addMember
  split
  · rfl
  · rw [Option.map_map]
    refine congrArg (fun f => Option.map f _) (funext fun i => ?_)
    show (if s.items i = v then s else _ : HSet).toMap = if s.items i = v then s.toMap else _
    split
    · rfl
    · show Map.mk _ _ _ _ = Map.mk _ _ _ _
      rw [Map.mk.injEq]
      refine ⟨rfl, ?_, rfl, rfl⟩
      funext j
      show (setItem s.items i v j, setItem s.items i v j) = setSlot (fun i => (s.items i, s.items i)) i (v, v) j
      simp only [setItem, setSlot]
      split <;> rfl

theorem reinsert_toMap (old : Nat → Nat) (t : Nat) (s : HSet) :
    (HSet.reinsert old t s).map HSet.toMap = reinsert (fun i => (old i, old i)) t s.toMap := by
  induction t with
  | zero => rfl
  | succ t ih =>
    rw [HSet.reinsert, reinsert, ← ih]
    rcases HSet.reinsert old t s with _ | s1
    · rfl
    · simp only [Option.map_some, Option.bind_some]
      exact add_toMap s1 (old t)

theorem hadd_toMap (s : HSet) (v : Nat) : (s.add v).map HSet.toMap = s.toMap.insert v v := by
  unfold HSet.add Map.insert
  rw [← add_toMap]
  rcases s.addMember v with _ | s1
  · rfl
  · simp only [Option.map_some, Option.bind_some]
    unfold HSet.rehash Map.rehash
    show _ = if 17 * 2 ^ s1.nbits ≤ 20 * (s1.nitems + s1.ndel).toNat then _ else _
    split
    · exact reinsert_toMap s1.items _ ⟨s1.nbits + 1, fun _ => 0, 0, 0⟩
    · rfl

theorem locate_toMap (s : HSet) (v : Nat) : s.locate v = s.toMap.locate v := rfl

theorem isMember_toMap (s : HSet) (v : Nat) : s.isMember v = s.toMap.have_ v := rfl

/-- `S` as a map from values to themselves. -/
def diag (l : List Nat) : Nat → Option Nat := fun k => if k ∈ l then some k else none

theorem srun_snoc (ops : List SOp) (o : SOp) : HSet.run (ops ++ [o]) = (HSet.run ops).bind (fun m => m.step o) := by
  unfold HSet.run
  rw [List.foldlM_append]
  rcases List.foldlM HSet.step HSet.create ops with _ | m
  · rfl
  · simp [List.foldlM]

theorem inv_of_same (m m' : Map) (h : m.Inv) (hb : m'.nbits = m.nbits)
    (hnz : ∀ i, m'.nz i = m.nz i) (hs : m'.nitems + m'.ndel = m.nitems + m.ndel) : m'.Inv := by
  have hcap : m'.cap = m.cap := by unfold Map.cap; rw [hb]
  have hc : cnt m'.nz m.cap = cnt m.nz m.cap := cnt_congr _ _ _ (fun i _ => hnz i)
  refine ⟨by rw [hb]; exact h.bits, ?_, ?_⟩
  · unfold Map.Sum; rw [hcap, hc, hs]; exact h.sum
  · rw [hcap, hc]; exact h.load

/-- State after removing an element found in slot `i`. -/
theorem sremove_inv (s : HSet) (i : Nat) (h : s.toMap.Inv) (hne : s.items i ≠ 0) :
    (HSet.toMap { s with items := setItem s.items i 1, nitems := s.nitems - 1, ndel := s.ndel + 1 }).Inv ∧
    ∀ j, (HSet.toMap { s with items := setItem s.items i 1, nitems := s.nitems - 1, ndel := s.ndel + 1 }).nz j = s.toMap.nz j := by
  have hnz : ∀ j, (HSet.toMap { s with items := setItem s.items i 1, nitems := s.nitems - 1, ndel := s.ndel + 1 }).nz j = s.toMap.nz j := by
    intro j
    simp only [Map.nz, HSet.toMap, setItem]
    split
    · rename_i hj; subst hj; simp [hne]
    · rfl
  refine ⟨inv_of_same s.toMap _ h rfl hnz ?_, hnz⟩
  show s.nitems - 1#64 + (s.ndel + 1#64) = s.nitems + s.ndel
  ring

theorem srun_inv (ops : List SOp) (hL : ops.length ≤ 2 ^ 28) :
    ∃ s, HSet.run ops = some s ∧ s.toMap.Inv ∧ s.toMap.Bnd ops.length := by
  induction ops using List.reverseRecOn with
  | nil => exact ⟨HSet.create, rfl, inv_create, ⟨le_of_eq (empty_cnt 3), Or.inl rfl⟩⟩
  | append_singleton l o ih =>
    rw [List.length_append, List.length_singleton] at hL
    obtain ⟨s, h1, h2, h3⟩ := ih (by omega)
    rw [srun_snoc, h1, List.length_append, List.length_singleton]
    simp only [Option.bind_some]
    rcases o with v | v
    · obtain ⟨m', a1, a2, a3⟩ := insert_inv s.toMap v v l.length h2 h3 (by omega)
      rw [← hadd_toMap, Option.map_eq_some_iff] at a1
      obtain ⟨s', b1, rfl⟩ := a1
      exact ⟨s', b1, a2, a3⟩
    · obtain ⟨i, hi⟩ := locate_total s.toMap v h2
      rw [← locate_toMap] at hi
      simp only [HSet.step, HSet.remove, hi, Option.map_some]
      have hB : ∀ s' : HSet, s'.nbits = s.nbits → (∀ j, s'.toMap.nz j = s.toMap.nz j) → s'.toMap.Bnd (l.length + 1) := by
        intro s' hb hnz
        have hcap : s'.toMap.cap = s.toMap.cap := by
          show 2 ^ s'.nbits = 2 ^ s.nbits; rw [hb]
        refine ⟨?_, ?_⟩
        · rw [hcap, cnt_congr _ _ _ (fun j _ => hnz j)]; have := h3.occ; omega
        · show s'.nbits = 3 ∨ 17 * 2 ^ s'.nbits ≤ _
          rw [hb]
          have h3s : s.nbits = 3 ∨ 17 * 2 ^ s.nbits ≤ 40 * l.length := h3.size
          omega
      split
      · exact ⟨s, rfl, h2, hB s rfl (fun _ => rfl)⟩
      · rename_i hne
        obtain ⟨c1, c2⟩ := sremove_inv s i h2 hne
        exact ⟨_, rfl, c1, hB _ rfl c2⟩

/-- **C35, termination.**  After any history of additions and removals, every operation on the
set returns. -/
theorem C35_terminates (ops : List SOp) (hL : ops.length < 2 ^ 28) :
    ∃ s, HSet.run ops = some s ∧ s.nbits < 31 ∧
      ∀ v, (s.add v).isSome ∧ (s.remove v).isSome ∧ (s.isMember v).isSome := by
  obtain ⟨s, h1, h2, h3⟩ := srun_inv ops (by omega)
  refine ⟨s, h1, h3.small (by omega), fun v => ?_⟩
  obtain ⟨m', a, -⟩ := insert_inv s.toMap v v ops.length h2 h3 hL
  rw [← hadd_toMap, Option.map_eq_some_iff] at a
  obtain ⟨s', a', -⟩ := a
  obtain ⟨_, c⟩ := locate_total s.toMap v h2
  rw [← locate_toMap] at c
  simp [a', c, HSet.remove, HSet.isMember]

/-! ## Agreement with a mathematical set -/

/-- Histories without the items 0 and 1 in which, once something was removed (`dirty`), an
element is added only when absent.  `l` is the abstract set. -/
def SLegal : Bool → List Nat → List SOp → Prop
  | _, _, [] => True
  | d, l, .add v :: ops => v ≠ 0 ∧ v ≠ 1 ∧ (v ∉ l ∨ d = false) ∧ SLegal d (if v ∈ l then l else v :: l) ops
  | _, l, .remove v :: ops => v ≠ 1 ∧ SLegal true (l.filter (· ≠ v)) ops

/-- The abstract set after a history. -/
def members : List Nat → List SOp → List Nat
  | l, [] => l
  | l, .add v :: ops => members (if v ∈ l then l else v :: l) ops
  | l, .remove v :: ops => members (l.filter (· ≠ v)) ops

theorem members_mem_add (l : List Nat) (v w : Nat) : w ∈ (if v ∈ l then l else v :: l) ↔ w = v ∨ w ∈ l := by
  split
  · rename_i h
    constructor
    · exact Or.inr
    · rintro (rfl | h')
      · exact h
      · exact h'
  · simp

/-- Only members are stored. -/
theorem absent_zero (s : HSet) (l : List Nat) (n v i : Nat) (hR : s.toMap.Rep (diag l) n) (hv1 : v ≠ 1)
    (hv : v ∉ l) (hi : s.toMap.locate v = some i) : s.items i = 0 := by
  have hss := search_some _ _ _ _ (show search _ _ _ = some i from hi)
  by_contra hne
  have hst : s.items i = v := by
    have hst := hss.2.1
    have hst' : (s.items i == 0 || s.items i == v) = true := hst
    simpa [hne] using hst'
  have hl : s.toMap.live i = true := by
    show decide (s.items i ≠ 0 ∧ s.items i ≠ 1) = true
    exact decide_eq_true ⟨hne, by rw [hst]; exact hv1⟩
  have h1 : diag l (s.items i) = some (s.items i) := hR.sound i hss.1 hl
  unfold diag at h1
  split at h1
  · rename_i h; rw [hst] at h; exact hv h
  · cases h1

theorem slegal_rep (ops : List SOp) : ∀ (d : Bool) (l : List Nat) (s : HSet) (L : Nat), SLegal d l ops → l.Nodup →
    s.toMap.Inv → s.toMap.Bnd L → L + ops.length ≤ 2 ^ 28 → s.toMap.Rep (diag l) l.length →
    (d = false → ∀ i, i < s.toMap.cap → s.items i ≠ 1) →
    ∃ s', ops.foldlM HSet.step s = some s' ∧ s'.toMap.Inv ∧
      s'.toMap.Rep (diag (members l ops)) (members l ops).length := by
  induction ops with
  | nil => intro d l s L _ _ hI _ _ hR _; exact ⟨s, rfl, hI, hR⟩
  | cons o ops ih =>
    intro d l s L hleg hd hI hB hL hR hT
    rw [List.length_cons] at hL
    rw [List.foldlM_cons]
    have hval : ∀ v, v ∈ l → v ≠ 0 ∧ v ≠ 1 := fun v hv => hR.val v v (by simp [diag, hv])
    rcases o with v | v
    · obtain ⟨hv0, hv1, hnew, hrest⟩ := hleg
      obtain ⟨m2, b1, b2, b3⟩ := insert_inv s.toMap v v L hI hB (by omega)
      by_cases hv : v ∈ l
      · -- already present: nothing was removed
        have hdf : d = false := by rcases hnew with h | h; exact absurd hv h; exact h
        have hag := insert_again s.toMap _ _ v v hR (by simp [diag, hv]) hI
          (by have := hB.small (by omega); omega) (hT hdf)
        rw [hag] at b1
        have e : s.toMap = m2 := Option.some.inj b1
        rw [← hadd_toMap, Option.map_eq_some_iff] at hag
        obtain ⟨s', c1, c2⟩ := hag
        have hs' : s'.toMap.Bnd (L + 1) := by rw [c2, e]; exact b3
        simp only [HSet.step, c1]
        rw [if_pos hv] at hrest
        have hit : s'.items = s.items := by
          have := congrArg Map.slots c2
          funext i
          exact congrArg Prod.fst (congrFun this i)
        have hcp : s'.toMap.cap = s.toMap.cap := by rw [c2]
        have := ih d l s' (L + 1) hrest hd (by rw [c2]; exact hI) hs' (by omega) (by rw [c2]; exact hR)
          (by rw [hit, hcp]; exact hT)
        simpa [members, hv] using this
      · obtain ⟨m1, a1, a2, a3⟩ := insert_fresh s.toMap _ _ v v hR (by
          intro k1 k2 w e1 e2
          simp only [diag] at e1 e2
          split at e1 <;> split at e2 <;> simp_all) ⟨hv0, hv1⟩ (by simp [diag, hv]) (by
          intro k' hk'
          simp only [diag] at hk'
          split at hk' <;> simp_all) hI
        rw [a1] at b1
        have e : m1 = m2 := Option.some.inj b1
        subst e
        rw [← hadd_toMap, Option.map_eq_some_iff] at a1
        obtain ⟨s', c1, rfl⟩ := a1
        simp only [HSet.step, c1]
        rw [if_neg hv] at hrest
        have hup : upd (diag l) v (some v) = diag (v :: l) := by
          funext k; unfold upd diag
          by_cases h : k = v <;> simp [h]
        rw [hup] at a2
        have := ih d (v :: l) s' (L + 1) hrest (List.nodup_cons.2 ⟨hv, hd⟩) b2 b3 (by omega) a2
          (fun hdf => a3 (hT hdf))
        simpa [members, hv] using this
    · obtain ⟨hv1, hrest⟩ := hleg
      by_cases hv : v ∈ l
      · obtain ⟨i, hi, hloc, hs⟩ := locate_found s.toMap _ _ v v hR (by simp [diag, hv])
        have hit : s.items i = v := congrArg Prod.fst hs
        have hne : s.items i ≠ 0 := by rw [hit]; exact (hval v hv).1
        rw [← locate_toMap] at hloc
        simp only [HSet.step, HSet.remove, hloc, Option.map_some, hne, if_false]
        obtain ⟨c1, c2⟩ := sremove_inv s i hI hne
        have hR' := tomb_rep s.toMap _ _ v v i 1 hR (by simp [diag, hv]) hi hs (by
          unfold upd diag
          by_cases h : 1 = v
          · simp [h]
          · have : 1 ∉ l := fun h1 => (hval 1 h1).2 rfl
            simp [h, this])
        have hm : (HSet.toMap { s with items := setItem s.items i 1, nitems := s.nitems - 1, ndel := s.ndel + 1 })
            = { s.toMap with slots := setSlot s.toMap.slots i (1, 1), nitems := s.toMap.nitems - 1, ndel := s.toMap.ndel + 1 } := by
          simp only [HSet.toMap, Map.mk.injEq, true_and, and_true]
          funext j; simp only [setItem, setSlot]; split <;> rfl
        rw [← hm] at hR'
        have hup : upd (diag l) v none = diag (l.filter (· ≠ v)) := by
          funext k; unfold upd diag
          by_cases h : k = v <;> simp [h]
        have hlen : (l.filter (· ≠ v)).length = l.length - 1 := by
          have := List.Nodup.erase_eq_filter hd v
          have h2 := List.length_erase_of_mem hv
          rw [this] at h2
          rw [← h2]
          refine congrArg List.length (List.filter_congr ?_)
          intro x _; by_cases h : x = v <;> simp [h]
        rw [hup, ← hlen] at hR'
        refine ih true (l.filter (· ≠ v)) _ (L + 1) hrest (hd.filter _) c1 ⟨?_, ?_⟩ (by omega) hR'
          (by intro h; cases h)
        · have : cnt _ s.toMap.cap = cnt s.toMap.nz s.toMap.cap := cnt_congr _ _ _ (fun j _ => c2 j)
          show cnt _ s.toMap.cap ≤ _
          rw [this]; have := hB.occ; omega
        · rcases hB.size with h | h
          · exact Or.inl h
          · right; show 17 * 2 ^ s.toMap.nbits ≤ _; omega
      · -- absent: the loop ends on an empty slot
        obtain ⟨i, hi⟩ := locate_total s.toMap v hI
        have h0 := absent_zero s l _ v i hR hv1 hv hi
        rw [← locate_toMap] at hi
        simp only [HSet.step, HSet.remove, hi, Option.map_some, h0, if_true]
        have hfl : l.filter (· ≠ v) = l := by
          rw [List.filter_eq_self]
          intro a ha; simp; rintro rfl; exact hv ha
        rw [hfl] at hrest
        have := ih true l s (L + 1) hrest hd hI ⟨by have := hB.occ; omega, by
          rcases hB.size with h | h
          · exact Or.inl h
          · right; omega⟩ (by omega) hR (by intro h; cases h)
        rw [members, hfl]; exact this

/-- **C35.**  Membership and size agree with a mathematical set along every legal history.
Missing from the full statement: adding a present element after a removal, and the items 0
and 1 (counterexamples below). -/
theorem C35_set_partial (ops : List SOp) (hleg : SLegal false [] ops) (hL : ops.length ≤ 2 ^ 28) :
    ∃ s, HSet.run ops = some s ∧ (∀ v, v ≠ 1 → s.isMember v = some (decide (v ∈ members [] ops))) ∧
      s.nitems = BitVec.ofNat 64 (members [] ops).length := by
  obtain ⟨s, h1, h2, h3⟩ := slegal_rep ops false [] HSet.create 0 hleg List.nodup_nil inv_create
    ⟨le_of_eq (empty_cnt 3), Or.inl rfl⟩ (by omega) (by
      have : diag [] = fun _ => none := by funext k; simp [diag]
      rw [this]; exact rep_empty 3) (by intro _ i _; simp [HSet.create])
  refine ⟨s, h1, ?_, h3.items⟩
  intro v hv1
  by_cases hv : v ∈ members [] ops
  · obtain ⟨i, hi, hloc, hs⟩ := locate_found s.toMap _ _ v v h3 (by simp [diag, hv])
    have hv' := h3.val v v (by simp [diag, hv])
    have hit : s.items i = v := congrArg Prod.fst hs
    rw [← locate_toMap] at hloc
    simp [HSet.isMember, hloc, hit, hv, hv'.1]
  · obtain ⟨i, hi⟩ := locate_total s.toMap v h2
    have h0 := absent_zero s _ _ v i h3 hv1 hv hi
    rw [← locate_toMap] at hi
    simp [HSet.isMember, hi, h0, hv]

example : SLegal false [] [.add 9, .add 9, .add 17, .remove 9, .add 25, .add 9] := by
  simp [SLegal]

/-- Additions only: always a set. -/
theorem C35_additions (vs : List Nat) (hv : ∀ v ∈ vs, v ≠ 0 ∧ v ≠ 1) (hL : vs.length ≤ 2 ^ 28) :
    ∃ s, HSet.run (vs.map SOp.add) = some s ∧ ∀ v, v ≠ 1 → s.isMember v = some (decide (v ∈ vs)) := by
  have hleg : ∀ l, SLegal false l (vs.map SOp.add) := by
    clear hL
    induction vs with
    | nil => intro l; trivial
    | cons a vs ih =>
      intro l
      exact ⟨(hv a (by simp)).1, (hv a (by simp)).2, Or.inr rfl, ih (fun v h => hv v (by simp [h])) _⟩
  have hmem : ∀ l w, w ∈ members l (vs.map SOp.add) ↔ w ∈ vs ∨ w ∈ l := by
    clear hL hleg hv
    induction vs with
    | nil => intro l w; simp [members]
    | cons a vs ih =>
      intro l w
      simp only [List.map_cons, members]
      rw [ih, members_mem_add, List.mem_cons]; tauto
  obtain ⟨s, h1, h2, -⟩ := C35_set_partial _ (hleg []) (by simpa using hL)
  refine ⟨s, h1, fun v hv1 => ?_⟩
  rw [h2 v hv1]; simp [hmem]

/-- **C35, negation.**  Adding an element that is present, after another was removed, stores
it twice: one removal leaves it a member. -/
theorem C35_removed_still_member : ∃ s, HSet.run [.add 9, .add 17, .remove 9, .add 17, .remove 17] = some s ∧
    s.isMember 17 = some true :=
  ⟨(HSet.run [.add 9, .add 17, .remove 9, .add 17, .remove 17]).get (by decide +kernel), by simp, by decide +kernel⟩

/-- **C35, negation.**  After a removal the item 1, never added (and refused by `add`), is a
member. -/
theorem C35_one_member : ∃ s, HSet.run [.add 9, .remove 9] = some s ∧ s.isMember 1 = some true :=
  ⟨(HSet.run [.add 9, .remove 9]).get (by decide +kernel), by simp, by decide +kernel⟩

end Verif.Hash
